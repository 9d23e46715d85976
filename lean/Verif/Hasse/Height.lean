import Mathlib.RingTheory.Localization.NumDen
import Mathlib.RingTheory.Polynomial.UniqueFactorization
import Mathlib.RingTheory.PrincipalIdealDomain
import Mathlib.Algebra.Polynomial.FieldDivision
import Verif.Hasse.AddSub

/-!
# Heights on the twist of a constant curve

Let `E : y² = f(x)` be an elliptic curve over a field `k` and `λ` a non-zero polynomial.  On the twist
`λY² = f(X)` over `k(t)`, written `y² = x³ + λa₂x² + λ²a₄x + λ³a₆` with `x = λX`, the height of a
point is the degree of the rational function `X`.  It satisfies the parallelogram law exactly.
-/

namespace Eclib.Hasse

open WeierstrassCurve Polynomial

set_option linter.unusedSectionVars false

variable {k : Type} [Field k]

/-! ### triples of polynomials -/

/-- no irreducible polynomial divides the three -/
def Prim (a b c : k[X]) : Prop := ∀ π : k[X], Irreducible π → ¬ (π ∣ a ∧ π ∣ b ∧ π ∣ c)

/-- the largest degree of the three is `n` -/
def Top (a b c : k[X]) (n : ℕ) : Prop :=
  (a.natDegree ≤ n ∧ b.natDegree ≤ n ∧ c.natDegree ≤ n) ∧ (a.coeff n ≠ 0 ∨ b.coeff n ≠ 0 ∨ c.coeff n ≠ 0)

theorem Top.le {a b c : k[X]} {m n : ℕ} (h : Top a b c m) (h' : Top a b c n) : m ≤ n := by
  obtain ⟨⟨h1, h2, h3⟩, -⟩ := h'
  rcases h.2 with h | h | h
  · exact (le_natDegree_of_ne_zero h).trans h1
  · exact (le_natDegree_of_ne_zero h).trans h2
  · exact (le_natDegree_of_ne_zero h).trans h3

theorem Top.unique {a b c : k[X]} {m n : ℕ} (h : Top a b c m) (h' : Top a b c n) : m = n :=
  le_antisymm (h.le h') (h'.le h)

/-- a polynomial of degree at most `n` with given coefficient at `n` -/
def Lead (a : k[X]) (n : ℕ) (c : k) : Prop := a.natDegree ≤ n ∧ a.coeff n = c

theorem Lead.mul {a b : k[X]} {m n : ℕ} {c d : k} (h : Lead a m c) (h' : Lead b n d) :
    Lead (a * b) (m + n) (c * d) :=
  ⟨natDegree_mul_le_of_le h.1 h'.1, by rw [coeff_mul_add_eq_of_natDegree_le h.1 h'.1, h.2, h'.2]⟩

theorem Lead.add {a b : k[X]} {n : ℕ} {c d : k} (h : Lead a n c) (h' : Lead b n d) :
    Lead (a + b) n (c + d) :=
  ⟨natDegree_add_le_of_degree_le h.1 h'.1, by rw [coeff_add, h.2, h'.2]⟩

theorem Lead.sub {a b : k[X]} {n : ℕ} {c d : k} (h : Lead a n c) (h' : Lead b n d) :
    Lead (a - b) n (c - d) :=
  ⟨(natDegree_sub_le_iff_left h'.1).2 h.1, by rw [coeff_sub, h.2, h'.2]⟩

theorem Lead.C_mul {a : k[X]} {n : ℕ} {c : k} (h : Lead a n c) (r : k) : Lead (C r * a) n (r * c) :=
  ⟨(natDegree_C_mul_le _ _).trans h.1, by rw [coeff_C_mul, h.2]⟩

theorem lead_self (a : k[X]) {n : ℕ} (h : a.natDegree ≤ n) : Lead a n (a.coeff n) := ⟨h, rfl⟩

/-- symmetric products of coprime pairs -/
theorem prim_sym {a b c d : k[X]} (h : IsCoprime a b) (h' : IsCoprime c d) :
    Prim (a * c) (a * d + b * c) (b * d) := by
  rintro π hπ ⟨h1, h2, h3⟩
  have hp := hπ.prime
  have n1 : ¬ (π ∣ a ∧ π ∣ b) := fun h4 => hπ.not_isUnit (h.isUnit_of_dvd' h4.1 h4.2)
  have n2 : ¬ (π ∣ c ∧ π ∣ d) := fun h4 => hπ.not_isUnit (h'.isUnit_of_dvd' h4.1 h4.2)
  rcases hp.dvd_or_dvd h1 with h4 | h4
  · have h5 := (dvd_add_right (h4.mul_right d)).1 h2
    rcases hp.dvd_or_dvd h5 with h6 | h6
    · exact n1 ⟨h4, h6⟩
    · rcases hp.dvd_or_dvd h3 with h7 | h7
      · exact n1 ⟨h4, h7⟩
      · exact n2 ⟨h6, h7⟩
  · have h5 := (dvd_add_left (h4.mul_left b)).1 h2
    rcases hp.dvd_or_dvd h5 with h6 | h6
    · rcases hp.dvd_or_dvd h3 with h7 | h7
      · exact n1 ⟨h6, h7⟩
      · exact n2 ⟨h4, h7⟩
    · exact n2 ⟨h4, h6⟩

/-- the height of a pair -/
def ht (a b : k[X]) : ℕ := max a.natDegree b.natDegree

theorem ht_coeff {a b : k[X]} (h : IsCoprime a b) : a.coeff (ht a b) ≠ 0 ∨ b.coeff (ht a b) ≠ 0 := by
  have h0 : a ≠ 0 ∨ b ≠ 0 := by
    by_contra hc
    push Not at hc
    rw [hc.1, hc.2] at h
    exact not_isCoprime_zero_zero h
  unfold ht
  rcases le_total a.natDegree b.natDegree with hl | hl
  · rw [max_eq_right hl]
    by_cases hb : b = 0
    · left
      rw [hb, natDegree_zero] at hl ⊢
      have : a.natDegree = 0 := by omega
      rw [← this, coeff_natDegree]
      exact leadingCoeff_ne_zero.2 (h0.resolve_right (not_not.2 hb))
    · right; rw [coeff_natDegree]; exact leadingCoeff_ne_zero.2 hb
  · rw [max_eq_left hl]
    by_cases ha : a = 0
    · right
      rw [ha, natDegree_zero] at hl ⊢
      have : b.natDegree = 0 := by omega
      rw [← this, coeff_natDegree]
      exact leadingCoeff_ne_zero.2 (h0.resolve_left (not_not.2 ha))
    · left; rw [coeff_natDegree]; exact leadingCoeff_ne_zero.2 ha

theorem sym_ne {a b c d : k} (h : a ≠ 0 ∨ b ≠ 0) (h' : c ≠ 0 ∨ d ≠ 0) :
    a * c ≠ 0 ∨ a * d + b * c ≠ 0 ∨ b * d ≠ 0 := by
  by_contra hc
  push Not at hc
  obtain ⟨h1, h2, h3⟩ := hc
  rcases mul_eq_zero.1 h1 with h4 | h4
  · have hb := h.resolve_left (not_not.2 h4)
    have hd := (mul_eq_zero.1 h3).resolve_left hb
    rw [h4, zero_mul, zero_add] at h2
    exact h'.elim (fun hc => hc ((mul_eq_zero.1 h2).resolve_left hb)) (fun h => h hd)
  · have hd := h'.resolve_left (not_not.2 h4)
    have hb := (mul_eq_zero.1 h3).resolve_right hd
    rw [h4, mul_zero, add_zero] at h2
    exact h.elim (fun ha => ha ((mul_eq_zero.1 h2).resolve_right hd)) (fun h => h hb)

theorem top_sym {a b c d : k[X]} (h : IsCoprime a b) (h' : IsCoprime c d) :
    Top (a * c) (a * d + b * c) (b * d) (ht a b + ht c d) := by
  have la := lead_self a (le_max_left a.natDegree b.natDegree)
  have lb := lead_self b (le_max_right a.natDegree b.natDegree)
  have lc := lead_self c (le_max_left c.natDegree d.natDegree)
  have ld := lead_self d (le_max_right c.natDegree d.natDegree)
  have l0 := la.mul lc
  have l1 := (la.mul ld).add (lb.mul lc)
  have l2 := lb.mul ld
  refine ⟨⟨l0.1, l1.1, l2.1⟩, ?_⟩
  have := sym_ne (ht_coeff h) (ht_coeff h')
  unfold ht at *
  rw [l0.2, l1.2, l2.2]
  exact this

/-! ### the forms -/

/-- the curve over `k[t]` -/
noncomputable abbrev Ep (E : WeierstrassCurve k) : WeierstrassCurve k[X] := E.map C

theorem prim_forms (E : WeierstrassCurve k) [E.IsElliptic] {s t u : k[X]} (h : Prim s t u) :
    Prim (F0 (Ep E) s t u) (F1 (Ep E) s t u) (F2 s t u) := by
  rintro π hπ ⟨h0, h1, h2⟩
  obtain ⟨⟨_, _, _, e0⟩, ⟨_, _, _, e1⟩, ⟨_, _, _, e2⟩⟩ := forms_combination (Ep E) s t u
  refine h π hπ ⟨?_, ?_, ?_⟩
  · refine hπ.prime.dvd_of_dvd_pow (n := 4) ?_
    rw [← e0]
    exact dvd_add (dvd_add (h0.mul_left _) (h1.mul_left _)) (h2.mul_left _)
  · refine hπ.prime.dvd_of_dvd_pow (n := 4) ?_
    rw [← e1]
    exact dvd_add (dvd_add (h0.mul_left _) (h1.mul_left _)) (h2.mul_left _)
  · refine hπ.prime.dvd_of_dvd_pow (n := 4) ?_
    rw [← e2]
    exact dvd_add (dvd_add (h0.mul_left _) (h1.mul_left _)) (h2.mul_left _)

theorem forms_ne (E : WeierstrassCurve k) [E.IsElliptic] {s t u : k} (h : s ≠ 0 ∨ t ≠ 0 ∨ u ≠ 0) :
    F0 E s t u ≠ 0 ∨ F1 E s t u ≠ 0 ∨ F2 s t u ≠ 0 := by
  by_contra hc
  push Not at hc
  obtain ⟨h0, h1, h2⟩ := hc
  obtain ⟨⟨_, _, _, e0⟩, ⟨_, _, _, e1⟩, ⟨_, _, _, e2⟩⟩ := forms_combination E s t u
  rw [h0, h1, h2, mul_zero, mul_zero, mul_zero, add_zero, add_zero] at e0 e1 e2
  rcases h with h | h | h
  · exact h (pow_eq_zero_iff (by omega) |>.1 e0.symm)
  · exact h (pow_eq_zero_iff (by omega) |>.1 e1.symm)
  · exact h (pow_eq_zero_iff (by omega) |>.1 e2.symm)

theorem top_forms (E : WeierstrassCurve k) [E.IsElliptic] {s t u : k[X]} {n : ℕ} (h : Top s t u n) :
    Top (F0 (Ep E) s t u) (F1 (Ep E) s t u) (F2 s t u) (n + n) := by
  obtain ⟨⟨hs, ht, hu⟩, hc⟩ := h
  have ls := lead_self s hs
  have lt := lead_self t ht
  have lu := lead_self u hu
  have e0 : F0 (Ep E) s t u = s * s - C E.b₄ * (s * u) - C E.b₆ * (t * u) - C E.b₈ * (u * u) := by
    simp only [F0, Ep, map_b₄, map_b₆, map_b₈]; ring
  have e1 : F1 (Ep E) s t u = C 2 * (t * s) + C E.b₂ * (s * u) + C E.b₄ * (t * u) + C E.b₆ * (u * u) := by
    simp only [F1, Ep, map_b₂, map_b₄, map_b₆]; rw [C_ofNat]; ring
  have e2 : F2 s t u = t * t - C 4 * (s * u) := by simp only [F2]; rw [C_ofNat]; ring
  have l0 := (((ls.mul ls).sub ((ls.mul lu).C_mul E.b₄)).sub ((lt.mul lu).C_mul E.b₆)).sub
    ((lu.mul lu).C_mul E.b₈)
  have l1 := ((((lt.mul ls).C_mul 2).add ((ls.mul lu).C_mul E.b₂)).add ((lt.mul lu).C_mul E.b₄)).add
    ((lu.mul lu).C_mul E.b₆)
  have l2 := (lt.mul lt).sub ((ls.mul lu).C_mul 4)
  rw [← e0] at l0
  rw [← e1] at l1
  rw [← e2] at l2
  refine ⟨⟨l0.1, l1.1, l2.1⟩, ?_⟩
  rw [l0.2, l1.2, l2.2]
  have := forms_ne E hc
  simp only [F0, F1, F2] at this
  refine this.imp (fun h1 h2 => h1 ?_) (Or.imp (fun h1 h2 => h1 ?_) (fun h1 h2 => h1 ?_)) <;>
    linear_combination h2

/-- proportional primitive triples have the same degrees -/
theorem top_of_proportional {a b c a' b' c' u v : k[X]} (hu : u ≠ 0) (hv : v ≠ 0) (huv : IsCoprime u v)
    (ha : v * a = u * a') (hb : v * b = u * b') (hc : v * c = u * c') (h : Prim a b c)
    (h' : Prim a' b' c') {n : ℕ} (hn : Top a b c n) : Top a' b' c' n := by
  have uu : IsUnit u := by
    by_contra hnu
    obtain ⟨π, hπ, hd⟩ := WfDvdMonoid.exists_irreducible_factor hnu hu
    have key : ∀ x x', v * x = u * x' → π ∣ x := fun x x' e =>
      hd.trans (huv.dvd_of_dvd_mul_left (Dvd.intro _ e.symm))
    exact h π hπ ⟨key _ _ ha, key _ _ hb, key _ _ hc⟩
  have uv : IsUnit v := by
    by_contra hnv
    obtain ⟨π, hπ, hd⟩ := WfDvdMonoid.exists_irreducible_factor hnv hv
    have key : ∀ x x', v * x = u * x' → π ∣ x' := fun x x' e =>
      hd.trans (huv.symm.dvd_of_dvd_mul_left (Dvd.intro _ e))
    exact h' π hπ ⟨key _ _ ha, key _ _ hb, key _ _ hc⟩
  obtain ⟨r, hr, rfl⟩ := Polynomial.isUnit_iff.1 uu
  obtain ⟨w, hw, rfl⟩ := Polynomial.isUnit_iff.1 uv
  have r0 := hr.ne_zero
  have w0 := hw.ne_zero
  have key : ∀ x x', C w * x = C r * x' → x'.natDegree = x.natDegree ∧ (x.coeff n ≠ 0 → x'.coeff n ≠ 0) := by
    intro x x' e
    refine ⟨by rw [← natDegree_C_mul (p := x) w0, e, natDegree_C_mul r0], fun h3 h4 => ?_⟩
    have := congrArg (fun p => p.coeff n) e
    simp only [coeff_C_mul, h4, mul_zero] at this
    exact (mul_ne_zero w0 h3) this
  have ka := key _ _ ha
  have kb := key _ _ hb
  have kc := key _ _ hc
  refine ⟨⟨ka.1 ▸ hn.1.1, kb.1 ▸ hn.1.2.1, kc.1 ▸ hn.1.2.2⟩, ?_⟩
  rcases hn.2 with h3 | h3 | h3
  · exact Or.inl (ka.2 h3)
  · exact Or.inr (Or.inl (kb.2 h3))
  · exact Or.inr (Or.inr (kc.2 h3))

/-! ### the twist -/

variable {K : Type} [Field K] [DecidableEq K] [Algebra k[X] K] [IsFractionRing k[X] K]

/-- the twist of the curve by `λ` -/
noncomputable def twist (K : Type) [Field K] [Algebra k[X] K] (E : WeierstrassCurve k) (l : k[X]) :
    WeierstrassCurve K :=
  ⟨0, algebraMap k[X] K (l * C E.a₂), 0, algebraMap k[X] K (l ^ 2 * C E.a₄),
    algebraMap k[X] K (l ^ 3 * C E.a₆)⟩

/-- `(a : b)` is the X-coordinate of `P` in lowest terms -/
def Rep {E : WeierstrassCurve k} {l : k[X]} (P : (twist K E l).toAffine.Point) (a b : k[X]) : Prop :=
  IsCoprime a b ∧ ∃ c : K, c ≠ 0 ∧ algebraMap k[X] K (l * a) = c * (xr P).1 ∧
    algebraMap k[X] K b = c * (xr P).2

theorem exists_rep {E : WeierstrassCurve k} {l : k[X]} (hl : l ≠ 0) (P : (twist K E l).toAffine.Point) :
    ∃ a b, Rep P a b := by
  have hl' : algebraMap k[X] K l ≠ 0 := (map_ne_zero_iff _ (IsFractionRing.injective k[X] K)).2 hl
  rcases P with _ | ⟨x, y, h⟩
  · exact ⟨1, 0, isCoprime_one_left, algebraMap k[X] K l, hl', by simp [xr], by simp [xr]⟩
  · obtain ⟨a, b, hab, e⟩ := IsFractionRing.exists_reduced_fraction (A := k[X])
      (x / algebraMap k[X] K l)
    have hb0 : algebraMap k[X] K (b : k[X]) ≠ 0 :=
      (map_ne_zero_iff _ (IsFractionRing.injective k[X] K)).2 (nonZeroDivisors.ne_zero b.2)
    refine ⟨a, b, hab.isCoprime, algebraMap k[X] K b, hb0, ?_, by simp [xr]⟩
    rw [IsFractionRing.mk'_eq_div, div_eq_div_iff hb0 hl'] at e
    rw [map_mul, mul_comm, e, xr]
    ring

/-- **the parallelogram law** -/
theorem parallelogram {E : WeierstrassCurve k} [E.IsElliptic] (ha1 : E.a₁ = 0) (ha3 : E.a₃ = 0)
    (h2 : (2 : k) ≠ 0) {l : k[X]} (hl : l ≠ 0) {P Q : (twist K E l).toAffine.Point}
    {a b c d α β γ δ : k[X]} (hP : Rep P a b) (hQ : Rep Q c d) (hS : Rep (P + Q) α β)
    (hD : Rep (P - Q) γ δ) : ht α β + ht γ δ = 2 * ht a b + 2 * ht c d := by
  have hinj := IsFractionRing.injective k[X] K
  have hl' : algebraMap k[X] K l ≠ 0 := (map_ne_zero_iff _ hinj).2 hl
  have h2K : (2 : K) ≠ 0 := by
    have : algebraMap k[X] K (C 2) ≠ 0 := (map_ne_zero_iff _ hinj).2 (C_ne_zero.2 h2)
    rw [C_ofNat, map_ofNat] at this
    exact this
  obtain ⟨e, f0, f1, f2⟩ := addSub (W := twist K E l) rfl rfl h2K P Q
  obtain ⟨kP, cP, c1, c2, c3⟩ := hP
  obtain ⟨kQ, cQ, d1, d2, d3⟩ := hQ
  obtain ⟨kS, cS, s1, s2, s3⟩ := hS
  obtain ⟨kD, cD, t1, t2, t3⟩ := hD
  have b2 : (twist K E l).b₂ = algebraMap k[X] K l * algebraMap k[X] K (C E.b₂) := by
    simp only [twist, WeierstrassCurve.b₂, ha1, map_mul, map_add, map_pow, map_ofNat]; simp; ring
  have b4 : (twist K E l).b₄ = algebraMap k[X] K l ^ 2 * algebraMap k[X] K (C E.b₄) := by
    simp only [twist, WeierstrassCurve.b₄, ha1, map_mul, map_add, map_pow, map_ofNat]; simp; ring
  have b6 : (twist K E l).b₆ = algebraMap k[X] K l ^ 3 * algebraMap k[X] K (C E.b₆) := by
    simp only [twist, WeierstrassCurve.b₆, ha3, map_mul, map_add, map_pow, map_ofNat]; simp; ring
  have b8 : (twist K E l).b₈ = algebraMap k[X] K l ^ 4 * algebraMap k[X] K (C E.b₈) := by
    simp only [twist, WeierstrassCurve.b₈, ha1, ha3, map_mul, map_add, map_sub, map_pow,
      map_ofNat]
    simp; ring
  have primS := prim_sym kP kQ
  have primF := prim_forms E primS
  have primT := prim_sym kS kD
  have topF := top_forms E (top_sym kP kQ)
  have topT := top_sym kS kD
  have ms : algebraMap k[X] K l ^ 2 * algebraMap k[X] K (a * c) = cP * cQ * ((xr P).1 * (xr Q).1) := by
    rw [map_mul] at c2 d2 ⊢
    linear_combination algebraMap k[X] K l * algebraMap k[X] K c * c2 + cP * (xr P).1 * d2
  have mt : algebraMap k[X] K l * algebraMap k[X] K (a * d + b * c) =
      cP * cQ * ((xr P).1 * (xr Q).2 + (xr P).2 * (xr Q).1) := by
    rw [map_mul] at c2 d2
    rw [map_add, map_mul, map_mul]
    linear_combination algebraMap k[X] K d * c2 + cP * (xr P).1 * d3 +
      algebraMap k[X] K l * algebraMap k[X] K c * c3 + cP * (xr P).2 * d2
  have mu : algebraMap k[X] K (b * d) = cP * cQ * ((xr P).2 * (xr Q).2) := by
    rw [map_mul]
    linear_combination algebraMap k[X] K d * c3 + cP * (xr P).2 * d3
  have m0 : algebraMap k[X] K (F0 (Ep E) (a * c) (a * d + b * c) (b * d)) * algebraMap k[X] K l ^ 4 =
      (cP * cQ) ^ 2 * F0 (twist K E l) ((xr P).1 * (xr Q).1)
        ((xr P).1 * (xr Q).2 + (xr P).2 * (xr Q).1) ((xr P).2 * (xr Q).2) := by
    have e0 : (cP * cQ) ^ 2 * F0 (twist K E l) ((xr P).1 * (xr Q).1)
        ((xr P).1 * (xr Q).2 + (xr P).2 * (xr Q).1) ((xr P).2 * (xr Q).2) =
        F0 (twist K E l) (cP * cQ * ((xr P).1 * (xr Q).1))
        (cP * cQ * ((xr P).1 * (xr Q).2 + (xr P).2 * (xr Q).1)) (cP * cQ * ((xr P).2 * (xr Q).2)) := by
      simp only [F0]; ring
    rw [e0, ← ms, ← mt, ← mu]
    obtain ⟨s, hs⟩ : ∃ s, s = a * c := ⟨_, rfl⟩
    obtain ⟨t, ht⟩ : ∃ t, t = a * d + b * c := ⟨_, rfl⟩
    obtain ⟨u, hu⟩ : ∃ u, u = b * d := ⟨_, rfl⟩
    rw [← hs, ← ht, ← hu]
    simp only [F0, b4, b6, b8, Ep, map_b₄, map_b₆, map_b₈, map_sub, map_mul, map_pow]
    ring
  have m1 : algebraMap k[X] K (F1 (Ep E) (a * c) (a * d + b * c) (b * d)) * algebraMap k[X] K l ^ 3 =
      (cP * cQ) ^ 2 * F1 (twist K E l) ((xr P).1 * (xr Q).1)
        ((xr P).1 * (xr Q).2 + (xr P).2 * (xr Q).1) ((xr P).2 * (xr Q).2) := by
    have e0 : (cP * cQ) ^ 2 * F1 (twist K E l) ((xr P).1 * (xr Q).1)
        ((xr P).1 * (xr Q).2 + (xr P).2 * (xr Q).1) ((xr P).2 * (xr Q).2) =
        F1 (twist K E l) (cP * cQ * ((xr P).1 * (xr Q).1))
        (cP * cQ * ((xr P).1 * (xr Q).2 + (xr P).2 * (xr Q).1)) (cP * cQ * ((xr P).2 * (xr Q).2)) := by
      simp only [F1]; ring
    rw [e0, ← ms, ← mt, ← mu]
    obtain ⟨s, hs⟩ : ∃ s, s = a * c := ⟨_, rfl⟩
    obtain ⟨t, ht⟩ : ∃ t, t = a * d + b * c := ⟨_, rfl⟩
    obtain ⟨u, hu⟩ : ∃ u, u = b * d := ⟨_, rfl⟩
    rw [← hs, ← ht, ← hu]
    simp only [F1, b2, b4, b6, Ep, map_b₂, map_b₄, map_b₆, map_add, map_mul, map_pow, map_ofNat]
    ring
  have m2 : algebraMap k[X] K (F2 (a * c) (a * d + b * c) (b * d)) * algebraMap k[X] K l ^ 2 =
      (cP * cQ) ^ 2 * F2 ((xr P).1 * (xr Q).1)
        ((xr P).1 * (xr Q).2 + (xr P).2 * (xr Q).1) ((xr P).2 * (xr Q).2) := by
    have e0 : (cP * cQ) ^ 2 * F2 ((xr P).1 * (xr Q).1)
        ((xr P).1 * (xr Q).2 + (xr P).2 * (xr Q).1) ((xr P).2 * (xr Q).2) =
        F2 (cP * cQ * ((xr P).1 * (xr Q).1))
        (cP * cQ * ((xr P).1 * (xr Q).2 + (xr P).2 * (xr Q).1)) (cP * cQ * ((xr P).2 * (xr Q).2)) := by
      simp only [F2]; ring
    rw [e0, ← ms, ← mt, ← mu]
    obtain ⟨s, hs⟩ : ∃ s, s = a * c := ⟨_, rfl⟩
    obtain ⟨t, ht⟩ : ∃ t, t = a * d + b * c := ⟨_, rfl⟩
    obtain ⟨u, hu⟩ : ∃ u, u = b * d := ⟨_, rfl⟩
    rw [← hs, ← ht, ← hu]
    simp only [F2, map_sub, map_mul, map_pow, map_ofNat]
    ring
  rw [f0] at m0
  rw [f1] at m1
  rw [f2] at m2
  obtain ⟨G0, hG0⟩ : ∃ G, G = F0 (Ep E) (a * c) (a * d + b * c) (b * d) := ⟨_, rfl⟩
  obtain ⟨G1, hG1⟩ : ∃ G, G = F1 (Ep E) (a * c) (a * d + b * c) (b * d) := ⟨_, rfl⟩
  obtain ⟨G2, hG2⟩ : ∃ G, G = F2 (a * c) (a * d + b * c) (b * d) := ⟨_, rfl⟩
  rw [← hG0] at m0 primF topF
  rw [← hG1] at m1 primF topF
  rw [← hG2] at m2 primF topF
  rw [map_mul] at s2 t2
  obtain ⟨ε, hε⟩ : ∃ ε, ε = (cP * cQ) ^ 2 * e / (algebraMap k[X] K l ^ 2 * (cS * cD)) := ⟨_, rfl⟩
  have hden : algebraMap k[X] K l ^ 2 * (cS * cD) ≠ 0 :=
    mul_ne_zero (pow_ne_zero 2 hl') (mul_ne_zero s1 t1)
  have hε' : ε * (algebraMap k[X] K l ^ 2 * (cS * cD)) = (cP * cQ) ^ 2 * e := by
    rw [hε, div_mul_cancel₀ _ hden]
  have r0 : algebraMap k[X] K G0 = ε * algebraMap k[X] K (α * γ) := by
    refine mul_right_cancel₀ (mul_ne_zero hden (pow_ne_zero 2 hl')) ?_
    rw [map_mul]
    linear_combination (cS * cD) * m0 - cS * cD * (xr (P + Q)).1 * (xr (P - Q)).1 * hε' -
      ε * algebraMap k[X] K l ^ 2 * cS * cD * (algebraMap k[X] K l * algebraMap k[X] K γ * s2 +
        cS * (xr (P + Q)).1 * t2)
  have r1 : algebraMap k[X] K G1 = ε * algebraMap k[X] K (α * δ + β * γ) := by
    refine mul_right_cancel₀ (mul_ne_zero hden hl') ?_
    rw [map_add, map_mul, map_mul]
    linear_combination (cS * cD) * m1 - cS * cD * ((xr (P + Q)).1 * (xr (P - Q)).2 +
        (xr (P + Q)).2 * (xr (P - Q)).1) * hε' -
      ε * algebraMap k[X] K l ^ 2 * cS * cD * (algebraMap k[X] K δ * s2 +
        cS * (xr (P + Q)).1 * t3 + algebraMap k[X] K l * algebraMap k[X] K γ * s3 +
        cS * (xr (P + Q)).2 * t2)
  have r2 : algebraMap k[X] K G2 = ε * algebraMap k[X] K (β * δ) := by
    refine mul_right_cancel₀ hden ?_
    rw [map_mul]
    linear_combination (cS * cD) * m2 - cS * cD * (xr (P + Q)).2 * (xr (P - Q)).2 * hε' -
      ε * algebraMap k[X] K l ^ 2 * cS * cD * (algebraMap k[X] K δ * s3 +
        cS * (xr (P + Q)).2 * t3)
  have hε0 : ε ≠ 0 := by
    intro h0
    rw [h0, zero_mul] at r0 r1 r2
    rw [map_eq_zero_iff _ hinj] at r0 r1 r2
    exact primF X irreducible_X ⟨r0 ▸ dvd_zero _, r1 ▸ dvd_zero _, r2 ▸ dvd_zero _⟩
  obtain ⟨u, v, huv, e1⟩ := IsFractionRing.exists_reduced_fraction (A := k[X]) ε
  have hv0 : (v : k[X]) ≠ 0 := nonZeroDivisors.ne_zero v.2
  have hv' : algebraMap k[X] K (v : k[X]) ≠ 0 := (map_ne_zero_iff _ hinj).2 hv0
  rw [IsFractionRing.mk'_eq_div, div_eq_iff hv'] at e1
  have hu0 : u ≠ 0 := by
    rintro rfl
    rw [map_zero] at e1
    exact mul_ne_zero hε0 hv' e1.symm
  have key : ∀ x x' : k[X], algebraMap k[X] K x = ε * algebraMap k[X] K x' → (v : k[X]) * x = u * x' := by
    intro x x' h
    apply hinj
    rw [map_mul, map_mul, h, e1]
    ring
  have := (top_of_proportional hu0 hv0 huv.isCoprime (key _ _ r0) (key _ _ r1) (key _ _ r2) primF primT
    topF).unique topT
  omega

end Eclib.Hasse
