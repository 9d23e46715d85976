import Verif.Legendre.SolveModel
import Verif.Legendre.Param
import Verif.Legendre.Props

/-!
# Correctness of `legendre_solve`
-/

namespace Eclib.Legendre

open Marith (XGcd SqrRootMod sqrtModM sqfdecomp)

def G.rot (s : G) : G := ⟨s.b, s.c, s.a, s.y, s.z, s.x⟩

/-- the equation with coefficients `a,b,c` is equivalent to the one with the coefficients in `s` -/
structure Scale (a b c : ℤ) (s : G) : Prop where
  ex : ∃ k l : ℤ, 0 < k ∧ 0 < l ∧ l * a * s.x ^ 2 = k * s.a ∧ l * b * s.y ^ 2 = k * s.b ∧ l * c * s.z ^ 2 = k * s.c
  x : 0 < s.x
  y : 0 < s.y
  z : 0 < s.z
  dvd : s.a * s.b * s.c ∣ a * b * c

theorem Scale.rot {a b c : ℤ} {s : G} (h : Scale a b c s) : Scale b c a s.rot := by
  obtain ⟨⟨k, l, h1, h2, h3, h4, h5⟩, hx, hy, hz, hd⟩ := h
  refine ⟨⟨k, l, h1, h2, h4, h5, h3⟩, hy, hz, hx, ?_⟩
  simp only [G.rot]
  rw [show s.b * s.c * s.a = s.a * s.b * s.c by ring, show b * c * a = a * b * c by ring]
  exact hd

/-- which pairs are known to be coprime, when `n` checks remain and the pair `b,c` is next -/
def J (n : ℕ) (s : G) : Prop :=
  (n ≤ 2 → IsCoprime s.a s.b) ∧ (n ≤ 1 → IsCoprime s.c s.a) ∧ (n = 0 → IsCoprime s.b s.c)

theorem J.rot0 {s : G} (h : J 0 s.rot) : J 0 s :=
  ⟨fun _ => h.2.1 (by omega), fun _ => h.2.2 rfl, fun _ => h.1 (by omega)⟩

def meas (s : G) (n : ℕ) : ℕ := 4 * (s.a * s.b * s.c).natAbs + n

theorem meas_rot (s : G) (n : ℕ) : meas s.rot n = meas s n := by
  simp only [meas, G.rot]
  rw [show s.b * s.c * s.a = s.a * s.b * s.c by ring]

theorem check0_spec {a b c : ℤ} {s : G} {n : ℕ} (h0 : s.a * s.b * s.c ≠ 0) (hs : Scale a b c s) (hJ : J (n + 1) s) :
    let r := check0 s n
    r.1.a * r.1.b * r.1.c ≠ 0 ∧ Scale a b c r.1 ∧ J r.2 r.1.rot ∧ meas r.1 r.2 < meas s (n + 1) := by
  intro r
  have hr : r = check0 s n := rfl
  have hb0 : s.b ≠ 0 := fun h => h0 (by rw [h]; ring)
  unfold check0 at hr
  simp only at hr
  by_cases hg : gcd s.b s.c > 1
  · rw [if_pos hg] at hr
    obtain ⟨g, u, v, e1, e2, e3, e4, e5, e6, e7⟩ := gcd_facts (m := s.b) (n := s.c) hb0
    rw [e1, e6, e7] at hr
    rw [e1] at hg
    obtain ⟨⟨k, l, h1, h2, h3, h4, h5⟩, hx, hy, hz, hd⟩ := hs
    have hprod : s.a * s.b * s.c = g * (s.a * g * u * v) := by rw [e3, e4]; ring
    have hne : s.a * g * u * v ≠ 0 := fun h => h0 (by rw [hprod, h, mul_zero])
    rw [hr]
    refine ⟨hne, ⟨⟨k * g, l, mul_pos h1 e2, h2, ?_, ?_, ?_⟩, mul_pos hx e2, hy, hz, ?_⟩, ?_, ?_⟩
    · simp only
      linear_combination g ^ 2 * h3
    · simp only
      rw [h4, e3]; ring
    · simp only
      rw [h5, e4]; ring
    · exact dvd_trans ⟨g, by simp only; rw [hprod]; ring⟩ hd
    · exact ⟨by omega, by omega, by omega⟩
    · simp only [meas]
      have e8 : (s.a * s.b * s.c).natAbs = g.natAbs * (s.a * g * u * v).natAbs := by rw [hprod, Int.natAbs_mul]
      rw [e8]
      have h6 : 0 < (s.a * g * u * v).natAbs := Int.natAbs_pos.mpr hne
      have h7 : 2 ≤ g.natAbs := by omega
      have : 2 * (s.a * g * u * v).natAbs ≤ g.natAbs * (s.a * g * u * v).natAbs := Nat.mul_le_mul_right _ h7
      omega
  · rw [if_neg hg] at hr
    rw [hr]
    have hco := coprime_of_gcd_le hb0 hg
    refine ⟨h0, hs, ⟨fun _ => hco, fun h => hJ.1 (by omega), fun h => hJ.2.1 (by omega)⟩, ?_⟩
    simp only [meas]
    omega

theorem check1_rot (s : G) (n : ℕ) : (check1 s n).1.rot = (check0 s.rot n).1 ∧ (check1 s n).2 = (check0 s.rot n).2 := by
  have e0 : check0 s.rot n = if gcd s.c s.a > 1 then (⟨s.b * gcd s.c s.a, s.c.fdiv (gcd s.c s.a),
      s.a.fdiv (gcd s.c s.a), s.y * gcd s.c s.a, s.z, s.x⟩, 3) else (s.rot, n) := rfl
  rw [e0]
  unfold check1
  simp only
  by_cases h : gcd s.c s.a > 1
  · rw [if_pos h, if_pos h]; exact ⟨rfl, rfl⟩
  · rw [if_neg h, if_neg h]; exact ⟨rfl, rfl⟩

theorem check2_rot (s : G) (n : ℕ) :
    (check2 s n).1.rot.rot = (check0 s.rot.rot n).1 ∧ (check2 s n).2 = (check0 s.rot.rot n).2 := by
  have e0 : check0 s.rot.rot n = if gcd s.a s.b > 1 then (⟨s.c * gcd s.a s.b, s.a.fdiv (gcd s.a s.b),
      s.b.fdiv (gcd s.a s.b), s.z * gcd s.a s.b, s.x, s.y⟩, 3) else (s.rot.rot, n) := rfl
  rw [e0]
  unfold check2
  simp only
  by_cases h : gcd s.a s.b > 1
  · rw [if_pos h, if_pos h]; exact ⟨rfl, rfl⟩
  · rw [if_neg h, if_neg h]; exact ⟨rfl, rfl⟩

/-- the state at the beginning of the body of the loop -/
def Good (a b c : ℤ) (s : G) (n : ℕ) : Prop := s.a * s.b * s.c ≠ 0 ∧ Scale a b c s ∧ J n s

theorem gcdBody_spec {a b c : ℤ} {s : G} {n : ℕ} (hn : 0 < n) (h : Good a b c s n) :
    Good a b c (gcdBody s n).1 (gcdBody s n).2 ∧ meas (gcdBody s n).1 (gcdBody s n).2 < meas s n := by
  have rot_ne : ∀ s : G, s.a * s.b * s.c ≠ 0 → s.rot.a * s.rot.b * s.rot.c ≠ 0 := by
    intro s h
    simp only [G.rot]
    rwa [show s.b * s.c * s.a = s.a * s.b * s.c by ring]
  obtain ⟨n, rfl⟩ := Nat.exists_eq_add_one_of_ne_zero hn.ne'
  have h1 := check0_spec h.1 h.2.1 h.2.2
  simp only at h1
  unfold gcdBody
  simp only [Nat.add_sub_cancel]
  generalize check0 s n = r1 at *
  obtain ⟨a1, a2, a3, a4⟩ := h1
  by_cases t1 : r1.2 > 0
  · rw [if_pos t1]
    obtain ⟨m, hm⟩ := Nat.exists_eq_add_one_of_ne_zero t1.ne'
    rw [hm] at a3
    have h2 := check0_spec (rot_ne _ a1) a2.rot a3
    simp only at h2
    rw [hm, Nat.add_sub_cancel]
    rw [← (check1_rot r1.1 m).1, ← (check1_rot r1.1 m).2] at h2
    generalize check1 r1.1 m = r2 at *
    obtain ⟨b1, b2, b3, b4⟩ := h2
    have b1' : r2.1.a * r2.1.b * r2.1.c ≠ 0 := rot_ne _ (rot_ne _ b1)
    have b2' : Scale a b c r2.1 := b2.rot.rot
    rw [meas_rot, meas_rot] at b4
    rw [hm] at a4
    by_cases t2 : r2.2 > 0
    · rw [if_pos t2]
      obtain ⟨m', hm'⟩ := Nat.exists_eq_add_one_of_ne_zero t2.ne'
      rw [hm'] at b3 b4
      have h3 := check0_spec (rot_ne _ b1) b2.rot b3
      simp only at h3
      rw [hm', Nat.add_sub_cancel]
      rw [← (check2_rot r2.1 m').1, ← (check2_rot r2.1 m').2] at h3
      generalize check2 r2.1 m' = r3 at *
      obtain ⟨c1, c2, c3, c4⟩ := h3
      rw [meas_rot, meas_rot, meas_rot, meas_rot] at c4
      exact ⟨⟨rot_ne _ c1, c2.rot, c3⟩, by omega⟩
    · rw [if_neg t2]
      have t3 : r2.2 = 0 := by omega
      rw [t3] at b3 b4 ⊢
      exact ⟨⟨b1', b2', b3.rot0.rot0⟩, by omega⟩
  · rw [if_neg t1, if_neg t1]
    have t2 : r1.2 = 0 := by omega
    rw [t2] at a3 a4 ⊢
    exact ⟨⟨a1, a2, a3.rot0⟩, a4⟩

theorem gcdLoop_spec {a b c : ℤ} : ∀ (k : ℕ) (s : G) (n : ℕ), Good a b c s n → meas s n < k →
    ∃ s', gcdLoop k s n = some s' ∧ Good a b c s' 0 := by
  intro k
  induction k with
  | zero => intro s n _ h; omega
  | succ k ih =>
    intro s n h hk
    rw [gcdLoop]
    by_cases hn : n > 0
    · rw [if_pos hn]
      obtain ⟨h1, h2⟩ := gcdBody_spec hn h
      exact ih _ _ h1 (by omega)
    · rw [if_neg hn]
      have : n = 0 := by omega
      subst this
      exact ⟨s, rfl, h⟩

/-- coprime coefficients are not changed -/
theorem gcdLoop_coprime {s : G} (h1 : IsCoprime s.a s.b) (h2 : IsCoprime s.b s.c) (h3 : IsCoprime s.c s.a) (k : ℕ) :
    gcdLoop (k + 2) s 3 = some s := by
  have g1 : gcd s.a s.b = 1 := by exact_mod_cast Int.isCoprime_iff_gcd_eq_one.mp h1
  have g2 : gcd s.b s.c = 1 := by exact_mod_cast Int.isCoprime_iff_gcd_eq_one.mp h2
  have g3 : gcd s.c s.a = 1 := by exact_mod_cast Int.isCoprime_iff_gcd_eq_one.mp h3
  have e0 : ∀ n, check0 s n = (s, n) := fun n => by simp [check0, g2]
  have e1 : ∀ n, check1 s n = (s, n) := fun n => by simp [check1, g3]
  have e2 : ∀ n, check2 s n = (s, n) := fun n => by simp [check2, g1]
  have : gcdBody s 3 = (s, 0) := by
    simp [gcdBody, e0, e1, e2]
  simp [gcdLoop, this]

/-! ### the certificate -/

/-- a soluble equation with square-free, pairwise coprime coefficients has a certificate modulo `a` -/
theorem cert_necessary {a b c x y z : ℤ} (hC : Coef a b c) (ha : Squarefree a) (hS : Sol a b c x y z)
    (hP : Prim x y z) : ∃ n, a ∣ n ^ 2 + b * c := by
  have hco : IsCoprime z a := by
    refine coprime_of_prime fun p hp h1 h2 => ?_
    have h3 : p ∣ y := by
      have : p ∣ b * y ^ 2 := by
        have e : b * y ^ 2 = -(a * x ^ 2) - c * z ^ 2 := by linear_combination hS.eqn
        rw [e]
        exact dvd_sub ((h2.mul_right _).neg_right) ((dvd_pow h1 two_ne_zero).mul_left _)
      rcases hp.dvd_or_dvd this with h | h
      · exact (not_both hC.cab hp h2 h).elim
      · exact hp.dvd_of_dvd_pow h
    have h4 : p ∣ x := by
      have : p ^ 2 ∣ a * x ^ 2 := by
        have e : a * x ^ 2 = -(b * y ^ 2) - c * z ^ 2 := by linear_combination hS.eqn
        rw [e]
        exact dvd_sub (((pow_dvd_pow_of_dvd h3 2).mul_left _).neg_right) ((pow_dvd_pow_of_dvd h1 2).mul_left _)
      obtain ⟨a', rfl⟩ := h2
      have h5 : p ∣ a' * x ^ 2 := by
        rw [mul_assoc, sq p] at this
        exact (mul_dvd_mul_iff_left hp.ne_zero).mp this
      rcases hp.dvd_or_dvd h5 with h | h
      · exact (hp.not_isUnit (ha p (mul_dvd_mul_left p h))).elim
      · exact hp.dvd_of_dvd_pow h
    exact hp.not_isUnit (hP p h4 h3 h1)
  obtain ⟨w, t, hw⟩ := hco
  refine ⟨b * y * w, -(b * w ^ 2 * x ^ 2) + b * c * t * (1 + w * z), ?_⟩
  linear_combination b * w ^ 2 * hS.eqn - b * c * (1 + w * z) * hw

theorem pd_abs {a : ℤ} {l : List ℤ} (h : Spec.IsPrimeDivisorList a l) : Spec.IsPrimeDivisorList |a| l :=
  ⟨h.nodup, fun p => by rw [h.mem, dvd_abs]⟩

theorem makeCert_some {X : XGcd} {S : SqrRootMod} {a b c : ℤ} {la lb lc : List ℤ} (hC : Coef a b c)
    (hpos : ¬ (0 < a ∧ 0 < b ∧ 0 < c)) (hneg : ¬ (a < 0 ∧ b < 0 ∧ c < 0))
    (ha : Spec.IsPrimeDivisorList a la) (hb : Spec.IsPrimeDivisorList b lb) (hc : Spec.IsPrimeDivisorList c lc)
    {m : ℤ × ℤ × ℤ} (h : makeCert X S a la b lb c lc = some m) : Cert a b c m.1 m.2.1 m.2.2 := by
  unfold makeCert at h
  cases h1 : sqrtModM X S (-b * c) |a| la with
  | none => rw [h1] at h; simp at h
  | some n =>
    cases h2 : sqrtModM X S (-a * c) |b| lb with
    | none => rw [h1, h2] at h; simp at h
    | some p =>
      cases h3 : sqrtModM X S (-a * b) |c| lc with
      | none => rw [h1, h2, h3] at h; simp at h
      | some q =>
        rw [h1, h2, h3] at h
        simp only [Option.map_some, Option.some.injEq] at h
        subst h
        have k1 := Marith.Props.C13_sqrt_mod_m X S _ _ _ (abs_ne_zero.mpr hC.a0) (pd_abs ha) n h1
        have k2 := Marith.Props.C13_sqrt_mod_m X S _ _ _ (abs_ne_zero.mpr hC.b0) (pd_abs hb) p h2
        have k3 := Marith.Props.C13_sqrt_mod_m X S _ _ _ (abs_ne_zero.mpr hC.c0) (pd_abs hc) q h3
        rw [Spec.Cong, abs_dvd] at k1 k2 k3
        refine ⟨hC.a0, hC.b0, hC.c0, hC.cab, hC.cbc, hC.cca, hpos, hneg, ?_, ?_, ?_⟩
        · obtain ⟨t, ht⟩ := k1
          exact ⟨t, by simp only; linear_combination ht⟩
        · obtain ⟨t, ht⟩ := k2
          exact ⟨t, by simp only; linear_combination ht⟩
        · obtain ⟨t, ht⟩ := k3
          exact ⟨t, by simp only; linear_combination ht⟩

theorem makeCert_none {X : XGcd} {S : SqrRootMod} {a b c : ℤ} {la lb lc : List ℤ} (hC : Coef a b c)
    (sa : Squarefree a) (sb : Squarefree b) (sc : Squarefree c)
    (ha : Spec.IsPrimeDivisorList a la) (hb : Spec.IsPrimeDivisorList b lb) (hc : Spec.IsPrimeDivisorList c lc)
    (h : makeCert X S a la b lb c lc = none) : ¬ ∃ x y z, Sol a b c x y z := by
  rintro ⟨x0, y0, z0, hS0⟩
  obtain ⟨hS, hP, -⟩ := hS0.cancel1
  generalize (cancel1 x0 y0 z0).1 = x at *
  generalize (cancel1 x0 y0 z0).2.1 = y at *
  generalize (cancel1 x0 y0 z0).2.2 = z at *
  have caux : ∀ {a b c : ℤ}, Coef a b c → IsCoprime (-b * c) |a| := by
    intro a b c h
    rw [IsCoprime.abs_right_iff]
    exact (IsCoprime.neg_left h.cab.symm).mul_left h.cca
  unfold makeCert at h
  cases h1 : sqrtModM X S (-b * c) |a| la with
  | none =>
    obtain ⟨n, hn⟩ := cert_necessary hC sa hS hP
    refine Marith.Props.C13_sqrt_mod_m_complete X S _ _ _ (abs_ne_zero.mpr hC.a0) (pd_abs ha) (caux hC) h1 ⟨n, ?_⟩
    rw [Spec.Cong, abs_dvd]
    obtain ⟨t, ht⟩ := hn; exact ⟨t, by linear_combination ht⟩
  | some n =>
    cases h2 : sqrtModM X S (-a * c) |b| lb with
    | none =>
      obtain ⟨n, hn⟩ := cert_necessary hC.cyc sb (Sol.cyc (Sol.cyc hS)) (Prim.cyc (Prim.cyc hP))
      refine Marith.Props.C13_sqrt_mod_m_complete X S _ _ _ (abs_ne_zero.mpr hC.b0) (pd_abs hb) ?_ h2 ⟨n, ?_⟩
      · have := caux hC.cyc
        rwa [show -c * a = -a * c by ring] at this
      rw [Spec.Cong, abs_dvd]
      obtain ⟨t, ht⟩ := hn; exact ⟨t, by linear_combination ht⟩
    | some p =>
      cases h3 : sqrtModM X S (-a * b) |c| lc with
      | none =>
        obtain ⟨n, hn⟩ := cert_necessary hC.cyc.cyc sc (Sol.cyc hS) (Prim.cyc hP)
        refine Marith.Props.C13_sqrt_mod_m_complete X S _ _ _ (abs_ne_zero.mpr hC.c0) (pd_abs hc) (caux hC.cyc.cyc) h3 ⟨n, ?_⟩
        rw [Spec.Cong, abs_dvd]
        obtain ⟨t, ht⟩ := hn; exact ⟨t, by linear_combination ht⟩
      | some q => rw [h1, h2, h3] at h; simp at h

/-! ### the last steps -/

theorem solveScaled_spec (X : XGcd) {a b c a2 b2 c2 n p q xf yf zf k l : ℤ} (hc : Cert a2 b2 c2 n p q)
    (sa : Squarefree a2) (sb : Squarefree b2) (sc : Squarefree c2) (hl : l ≠ 0)
    (e1 : l * a * xf ^ 2 = k * a2) (e2 : l * b * yf ^ 2 = k * b2) (e3 : l * c * zf ^ 2 = k * c2)
    (hx : xf ≠ 0) (hy : yf ≠ 0) (hz : zf ≠ 0) :
    ∃ x y z, solveScaled X a2 b2 c2 n p q xf yf zf = .sol x y z ∧ Sol a b c x y z ∧ Prim x y z ∧
      0 ≤ x ∧ 0 ≤ y ∧ 0 ≤ z ∧ (xf = 1 → yf = 1 → zf = 1 → Holzer a2 b2 c2 x y z) := by
  obtain ⟨x, y, z, h1, h2, -⟩ := C90_solve_cert_squarefree X a2 b2 c2 n p q hc sa sb sc
    (|b2 * c2|.toNat + 1) (by have := abs_nonneg (b2 * c2); omega)
  unfold solveScaled
  rw [h1]
  simp only
  obtain ⟨h3, h4, -⟩ := h2.cancel1
  have hC : Coef a2 b2 c2 := ⟨hc.a0, hc.b0, hc.c0, hc.cab, hc.cbc, hc.cca⟩
  obtain ⟨r, h5, h6, h7, h8⟩ := newReduce_spec X hC hc.pos hc.neg h3 h4
  rw [h5]
  simp only
  have hS : Sol a b c (r.1 * xf) (r.2.1 * yf) (r.2.2 * zf) := by
    refine ⟨?_, fun ⟨z1, z2, z3⟩ => h6.ne ⟨(mul_eq_zero.mp z1).resolve_right hx, (mul_eq_zero.mp z2).resolve_right hy,
      (mul_eq_zero.mp z3).resolve_right hz⟩⟩
    have : l * (a * (r.1 * xf) ^ 2 + b * (r.2.1 * yf) ^ 2 + c * (r.2.2 * zf) ^ 2) = 0 := by
      linear_combination r.1 ^ 2 * e1 + r.2.1 ^ 2 * e2 + r.2.2 ^ 2 * e3 + k * h6.eqn
    exact (mul_eq_zero.mp this).resolve_left hl
  obtain ⟨g1, g, g0, gx, gy, gz⟩ := cancel1_spec hS.abs.ne
  obtain ⟨h9, -⟩ := hS.abs.cancel1
  have nn : ∀ u v : ℤ, 0 ≤ u → u = g * v → 0 ≤ v := fun u v h e => by
    rw [e] at h
    exact nonneg_of_mul_nonneg_right h g0
  refine ⟨_, _, _, rfl, h9, g1, nn _ _ (abs_nonneg _) gx, nn _ _ (abs_nonneg _) gy, nn _ _ (abs_nonneg _) gz, ?_⟩
  rintro rfl rfl rfl
  simp only [mul_one] at *
  generalize cancel1 |r.1| |r.2.1| |r.2.2| = w at *
  have sqle : ∀ u v m : ℤ, |u| = g * v → u ^ 2 ≤ m → v ^ 2 ≤ m := fun u v m e h => by
    rw [← sq_abs, e] at h
    have h1 : 1 ≤ g ^ 2 := by nlinarith
    nlinarith [mul_nonneg (sq_nonneg v) (sub_nonneg.mpr h1)]
  exact ⟨sqle _ _ _ gx h8.hx, sqle _ _ _ gy h8.hy, sqle _ _ _ gz h8.hz⟩

/-- the data computed before step 4 -/
theorem legendreSolve_prep {a b c : ℤ} {fb : List ℤ}
    (hpr : ∀ p ∈ fb, 0 < p ∧ Prime p) (hnd : fb.Nodup) (hall : ∀ p, 0 < p → Prime p → p ∣ a * b * c → p ∈ fb)
    {s : G} (hG : Good a b c s 0) :
    let ra := sqfdecomp s.a fb
    let rb := sqfdecomp s.b fb
    let rc := sqfdecomp s.c fb
    let f := cancel1 (s.x * rb.2.1 * rc.2.1) (s.y * ra.2.1 * rc.2.1) (s.z * ra.2.1 * rb.2.1)
    Coef ra.1 rb.1 rc.1 ∧ Squarefree ra.1 ∧ Squarefree rb.1 ∧ Squarefree rc.1 ∧
      Spec.IsPrimeDivisorList ra.1 ra.2.2 ∧ Spec.IsPrimeDivisorList rb.1 rb.2.2 ∧ Spec.IsPrimeDivisorList rc.1 rc.2.2 ∧
      s.a = ra.1 * ra.2.1 ^ 2 ∧ s.b = rb.1 * rb.2.1 ^ 2 ∧ s.c = rc.1 * rc.2.1 ^ 2 ∧
      (0 < ra.2.1 ∧ 0 < rb.2.1 ∧ 0 < rc.2.1) ∧
      ∃ k l : ℤ, 0 < k ∧ 0 < l ∧ l * a * f.1 ^ 2 = k * ra.1 ∧ l * b * f.2.1 ^ 2 = k * rb.1 ∧
        l * c * f.2.2 ^ 2 = k * rc.1 ∧ 0 < f.1 ∧ 0 < f.2.1 ∧ 0 < f.2.2 := by
  intro ra rb rc f
  obtain ⟨h0, ⟨⟨k, l, hk, hl, e1, e2, e3⟩, hx, hy, hz, hd⟩, hJ⟩ := hG
  have a0 : s.a ≠ 0 := fun h => h0 (by rw [h]; ring)
  have b0 : s.b ≠ 0 := fun h => h0 (by rw [h]; ring)
  have c0 : s.c ≠ 0 := fun h => h0 (by rw [h]; ring)
  obtain ⟨a1, a2, a3, a4⟩ := Marith.Props.C14_sqfdecomp_factorbase s.a fb a0 hpr hnd
    fun p p1 p2 p3 => hall p p1 p2 ((p3.trans ⟨s.b * s.c, by ring⟩).trans hd)
  obtain ⟨b1, b2, b3, b4⟩ := Marith.Props.C14_sqfdecomp_factorbase s.b fb b0 hpr hnd
    fun p p1 p2 p3 => hall p p1 p2 ((p3.trans ⟨s.a * s.c, by ring⟩).trans hd)
  obtain ⟨c1, c2, c3, c4⟩ := Marith.Props.C14_sqfdecomp_factorbase s.c fb c0 hpr hnd
    fun p p1 p2 p3 => hall p p1 p2 ((p3.trans ⟨s.a * s.b, by ring⟩).trans hd)
  have da : ra.1 ∣ s.a := ⟨ra.2.1 ^ 2, a1⟩
  have db : rb.1 ∣ s.b := ⟨rb.2.1 ^ 2, b1⟩
  have dc : rc.1 ∣ s.c := ⟨rc.2.1 ^ 2, c1⟩
  refine ⟨⟨a2.ne_zero, b2.ne_zero, c2.ne_zero, ?_, ?_, ?_⟩, a2, b2, c2, a4, b4, c4, a1, b1, c1, ⟨a3, b3, c3⟩, ?_⟩
  · exact ((hJ.1 (by omega)).of_isCoprime_of_dvd_left da).of_isCoprime_of_dvd_right db
  · exact ((hJ.2.2 rfl).of_isCoprime_of_dvd_left db).of_isCoprime_of_dvd_right dc
  · exact ((hJ.2.1 (by omega)).of_isCoprime_of_dvd_left dc).of_isCoprime_of_dvd_right da
  change 0 < ra.2.1 at a3
  change 0 < rb.2.1 at b3
  change 0 < rc.2.1 at c3
  change s.a = ra.1 * ra.2.1 ^ 2 at a1
  change s.b = rb.1 * rb.2.1 ^ 2 at b1
  change s.c = rc.1 * rc.2.1 ^ 2 at c1
  have px : 0 < s.x * rb.2.1 * rc.2.1 := by positivity
  have py : 0 < s.y * ra.2.1 * rc.2.1 := by positivity
  have pz : 0 < s.z * ra.2.1 * rb.2.1 := by positivity
  obtain ⟨-, g, g0, gx, gy, gz⟩ := cancel1_spec (x := s.x * rb.2.1 * rc.2.1) (y := s.y * ra.2.1 * rc.2.1)
    (z := s.z * ra.2.1 * rb.2.1) (fun h => px.ne' h.1)
  change _ = g * f.1 at gx
  change _ = g * f.2.1 at gy
  change _ = g * f.2.2 at gz
  refine ⟨k * (ra.2.1 * rb.2.1 * rc.2.1) ^ 2, l * g ^ 2, by positivity, by positivity, ?_, ?_, ?_, ?_, ?_, ?_⟩
  · have : l * g ^ 2 * a * f.1 ^ 2 = l * a * (g * f.1) ^ 2 := by ring
    rw [this, ← gx]
    rw [a1] at e1
    linear_combination (rb.2.1 * rc.2.1) ^ 2 * e1
  · have : l * g ^ 2 * b * f.2.1 ^ 2 = l * b * (g * f.2.1) ^ 2 := by ring
    rw [this, ← gy]
    rw [b1] at e2
    linear_combination (ra.2.1 * rc.2.1) ^ 2 * e2
  · have : l * g ^ 2 * c * f.2.2 ^ 2 = l * c * (g * f.2.2) ^ 2 := by ring
    rw [this, ← gz]
    rw [c1] at e3
    linear_combination (ra.2.1 * rb.2.1) ^ 2 * e3
  · exact (mul_pos_iff_of_pos_left g0).mp (gx ▸ px)
  · exact (mul_pos_iff_of_pos_left g0).mp (gy ▸ py)
  · exact (mul_pos_iff_of_pos_left g0).mp (gz ▸ pz)

/-- solubility is not changed by the scaling -/
theorem sol_of_scaled {a b c a2 b2 c2 xf yf zf k l x y z : ℤ} (hk : k ≠ 0)
    (e1 : l * a * xf ^ 2 = k * a2) (e2 : l * b * yf ^ 2 = k * b2) (e3 : l * c * zf ^ 2 = k * c2)
    (hx : xf ≠ 0) (hy : yf ≠ 0) (hz : zf ≠ 0) (h : Sol a b c x y z) :
    Sol a2 b2 c2 (yf * zf * x) (xf * zf * y) (xf * yf * z) := by
  refine ⟨?_, fun ⟨z1, z2, z3⟩ => h.ne ⟨(mul_eq_zero.mp z1).resolve_left (mul_ne_zero hy hz),
    (mul_eq_zero.mp z2).resolve_left (mul_ne_zero hx hz), (mul_eq_zero.mp z3).resolve_left (mul_ne_zero hx hy)⟩⟩
  have : k * (a2 * (yf * zf * x) ^ 2 + b2 * (xf * zf * y) ^ 2 + c2 * (xf * yf * z) ^ 2) = 0 := by
    linear_combination -(yf * zf * x) ^ 2 * e1 - (xf * zf * y) ^ 2 * e2 - (xf * yf * z) ^ 2 * e3 +
      l * (xf * yf * zf) ^ 2 * h.eqn
  exact (mul_eq_zero.mp this).resolve_left hk

theorem sign_scaled {a a2 f k l : ℤ} (hk : 0 < k) (hl : 0 < l) (hf : 0 < f) (e : l * a * f ^ 2 = k * a2) :
    (0 < a2 → 0 < a) ∧ (a2 < 0 → a < 0) := by
  have hp : 0 < l * f ^ 2 := by positivity
  have e' : (l * f ^ 2) * a = k * a2 := by linear_combination e
  constructor
  · intro h
    have : 0 < (l * f ^ 2) * a := by rw [e']; positivity
    exact (mul_pos_iff_of_pos_left hp).mp this
  · intro h
    have : (l * f ^ 2) * a < 0 := by rw [e']; exact mul_neg_of_pos_of_neg hk h
    exact neg_of_mul_neg_right this hp.le

/-- `legendre_solve` -/
theorem legendreSolve_spec (X : XGcd) (S : SqrRootMod) {a b c : ℤ} {fb : List ℤ} (ha : a ≠ 0) (hb : b ≠ 0) (hc : c ≠ 0)
    (hpr : ∀ p ∈ fb, 0 < p ∧ Prime p) (hnd : fb.Nodup) (hall : ∀ p, 0 < p → Prime p → p ∣ a * b * c → p ∈ fb) :
    (∃ x y z, legendreSolve X S a b c fb = .sol x y z ∧ Sol a b c x y z ∧ Prim x y z ∧ 0 ≤ x ∧ 0 ≤ y ∧ 0 ≤ z) ∨
    (legendreSolve X S a b c fb = .insol ∧ ¬ ∃ x y z, Sol a b c x y z) := by
  unfold legendreSolve
  rw [if_neg (by tauto)]
  by_cases hsg : (0 < a ∧ 0 < b ∧ 0 < c) ∨ (a < 0 ∧ b < 0 ∧ c < 0)
  · right
    rw [if_pos hsg]
    refine ⟨rfl, ?_⟩
    rintro ⟨x, y, z, h⟩
    have hsum := h.eqn
    apply h.ne
    have hz : ∀ w : ℤ, w ^ 2 ≤ 0 → w = 0 := fun w hw => pow_eq_zero_iff two_ne_zero |>.mp (le_antisymm hw (sq_nonneg w))
    rcases hsg with ⟨p1, p2, p3⟩ | ⟨p1, p2, p3⟩
    · have q1 := mul_nonneg p1.le (sq_nonneg x)
      have q2 := mul_nonneg p2.le (sq_nonneg y)
      have q3 := mul_nonneg p3.le (sq_nonneg z)
      exact ⟨hz _ (by nlinarith), hz _ (by nlinarith), hz _ (by nlinarith)⟩
    · have q1 := mul_nonpos_of_nonpos_of_nonneg p1.le (sq_nonneg x)
      have q2 := mul_nonpos_of_nonpos_of_nonneg p2.le (sq_nonneg y)
      have q3 := mul_nonpos_of_nonpos_of_nonneg p3.le (sq_nonneg z)
      exact ⟨hz _ (by nlinarith), hz _ (by nlinarith), hz _ (by nlinarith)⟩
  rw [if_neg hsg]
  push Not at hsg
  have hG0 : Good a b c ⟨a, b, c, 1, 1, 1⟩ 3 :=
    ⟨mul_ne_zero (mul_ne_zero ha hb) hc, ⟨⟨1, 1, by norm_num, by norm_num, by ring, by ring, by ring⟩, by norm_num,
      by norm_num, by norm_num, dvd_rfl⟩, ⟨by omega, by omega, by omega⟩⟩
  obtain ⟨s, hs, hG⟩ := gcdLoop_spec (4 * (a * b * c).natAbs + 4) _ _ hG0 (by simp only [meas]; omega)
  rw [hs]
  obtain ⟨hC, sa, sb, sc, la, lb, lc, -, -, -, -, k, l, hk, hl, e1, e2, e3, fx, fy, fz⟩ :=
    legendreSolve_prep hpr hnd hall hG
  simp only
  generalize sqfdecomp s.a fb = ra at *
  generalize sqfdecomp s.b fb = rb at *
  generalize sqfdecomp s.c fb = rc at *
  generalize cancel1 (s.x * rb.2.1 * rc.2.1) (s.y * ra.2.1 * rc.2.1) (s.z * ra.2.1 * rb.2.1) = f at *
  have ga := sign_scaled hk hl fx e1
  have gb := sign_scaled hk hl fy e2
  have gc := sign_scaled hk hl fz e3
  cases hm : makeCert X S ra.1 ra.2.2 rb.1 rb.2.2 rc.1 rc.2.2 with
  | none =>
    right
    refine ⟨rfl, ?_⟩
    rintro ⟨x, y, z, h⟩
    exact makeCert_none hC sa sb sc la lb lc hm ⟨_, _, _, sol_of_scaled hk.ne' e1 e2 e3 fx.ne' fy.ne' fz.ne' h⟩
  | some m =>
    left
    have hcert := makeCert_some hC (fun ⟨p1, p2, p3⟩ => by have := hsg.1 (ga.1 p1) (gb.1 p2); have := gc.1 p3; omega)
      (fun ⟨p1, p2, p3⟩ => by have := hsg.2 (ga.2 p1) (gb.2 p2); have := gc.2 p3; omega) la lb lc hm
    obtain ⟨x, y, z, h1, h2, h3, h4, h5, h6, -⟩ := solveScaled_spec X hcert sa sb sc hl.ne' e1 e2 e3 fx.ne' fy.ne' fz.ne'
    exact ⟨x, y, z, h1, h2, h3, h4, h5, h6⟩

/-- For square-free, pairwise coprime coefficients the solution satisfies Holzer's bounds -/
theorem legendreSolve_holzer (X : XGcd) (S : SqrRootMod) {a b c : ℤ} {fb : List ℤ} (hC : Coef a b c)
    (sa : Squarefree a) (sb : Squarefree b) (sc : Squarefree c)
    (hpr : ∀ p ∈ fb, 0 < p ∧ Prime p) (hnd : fb.Nodup) (hall : ∀ p, 0 < p → Prime p → p ∣ a * b * c → p ∈ fb)
    {x y z : ℤ} (h : legendreSolve X S a b c fb = .sol x y z) : Holzer a b c x y z := by
  have ha := hC.a0
  have hb := hC.b0
  have hc := hC.c0
  unfold legendreSolve at h
  rw [if_neg (by tauto)] at h
  split_ifs at h with hsg
  push Not at hsg
  rw [gcdLoop_coprime (s := ⟨a, b, c, 1, 1, 1⟩) hC.cab hC.cbc hC.cca (4 * (a * b * c).natAbs + 2)] at h
  have hG : Good a b c ⟨a, b, c, 1, 1, 1⟩ 0 :=
    ⟨mul_ne_zero (mul_ne_zero ha hb) hc, ⟨⟨1, 1, by norm_num, by norm_num, by ring, by ring, by ring⟩, by norm_num,
      by norm_num, by norm_num, dvd_rfl⟩, ⟨fun _ => hC.cab, fun _ => hC.cca, fun _ => hC.cbc⟩⟩
  obtain ⟨hC2, sa2, sb2, sc2, la, lb, lc, ea, eb, ec, ⟨pa, pb, pc⟩, -⟩ :=
    legendreSolve_prep hpr hnd hall hG
  have one : ∀ {a a2 a3 : ℤ}, Squarefree a → 0 < a3 → a = a2 * a3 ^ 2 → a3 = 1 := by
    intro a a2 a3 h1 h2 h3
    have := h1 a3 ⟨a2, by rw [h3]; ring⟩
    rw [Int.isUnit_iff] at this
    omega
  simp only at h ea eb ec
  generalize sqfdecomp a fb = ra at *
  generalize sqfdecomp b fb = rb at *
  generalize sqfdecomp c fb = rc at *
  have oa := one sa pa ea
  have ob := one sb pb eb
  have oc := one sc pc ec
  rw [oa, one_pow, mul_one] at ea
  rw [ob, one_pow, mul_one] at eb
  rw [oc, one_pow, mul_one] at ec
  simp only [oa, ob, oc, mul_one] at h
  rw [← ea] at h la
  rw [← eb] at h lb
  rw [← ec] at h lc
  have h111 : cancel1 1 1 1 = (1, 1, 1) := by decide
  rw [h111] at h
  cases hm : makeCert X S a ra.2.2 b rb.2.2 c rc.2.2 with
  | none => rw [hm] at h; simp at h
  | some m =>
    rw [hm] at h
    have hcert := makeCert_some hC (fun ⟨p1, p2, p3⟩ => by have := hsg.1 p1 p2; omega)
      (fun ⟨p1, p2, p3⟩ => by have := hsg.2 p1 p2; omega) la lb lc hm
    obtain ⟨x', y', z', h1, -, -, -, -, -, h6⟩ := solveScaled_spec (a := a) (b := b) (c := c) X hcert sa sb sc one_ne_zero
      (k := 1) (xf := 1) (yf := 1) (zf := 1) (by ring) (by ring) (by ring) one_ne_zero one_ne_zero one_ne_zero
    simp only at h
    rw [h1] at h
    injection h with i1 i2 i3
    rw [← i1, ← i2, ← i3]
    exact h6 rfl rfl rfl

end Eclib.Legendre
