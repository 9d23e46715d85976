import Mathlib.GroupTheory.OrderOfElement
import Mathlib.Data.Nat.Factorization.Basic
import Mathlib.Data.Nat.Prime.Int
import Mathlib.SetTheory.Cardinal.Finite
import Verif.Curve.Minimal
import Verif.Marith.Props
import Verif.Pmod.BgCurve

/-!
# C67: orders of points
-/

set_option linter.unusedSectionVars false

namespace Eclib.Pmod

variable {G : Type} [AddCommGroup G] [DecidableEq G] {κ : Type} [DecidableEq κ]

theorem killLoop_spec (p : ℤ) (k fuel : ℕ) (Q : G) (ans : ℤ) (hf : k ≤ fuel) (hk : p ^ k • Q = 0)
    (hmin : ∀ j < k, p ^ j • Q ≠ 0) : killLoop p fuel Q ans = some (ans * p ^ k) := by
  induction k generalizing fuel Q ans with
  | zero =>
    have : Q = 0 := by simpa using hk
    cases fuel <;> simp [killLoop, this]
  | succ k ih =>
    obtain ⟨f, rfl⟩ : ∃ f, fuel = f + 1 := ⟨fuel - 1, by omega⟩
    have hQ : Q ≠ 0 := by simpa using hmin 0 (by omega)
    rw [killLoop, if_neg hQ, ih f (p • Q) (ans * p) (by omega)
      (by rw [smul_smul, ← pow_succ]; exact hk)
      (fun j hj => by rw [smul_smul, ← pow_succ]; exact hmin (j + 1) (by omega)), pow_succ]
    congr 1
    ring

/-- the order of `m P` when `m` is the prime-to-`p` part of a multiple of the order -/
theorem prime_part {P : G} {n : ℕ} (hn : addOrderOf P = n) (hn0 : 0 < n) {p : ℕ} (hp : p.Prime)
    {m : ℤ} {e : ℕ} (hm : ¬ (p : ℤ) ∣ m) (hmult : ((p : ℤ) ^ e * m) • P = 0) (j : ℕ) :
    ((p : ℤ) ^ j • (m • P) = 0 ↔ n.factorization p ≤ j) := by
  rw [smul_smul, ← addOrderOf_dvd_iff_zsmul_eq_zero] at *
  rw [hn] at *
  obtain ⟨k, hk⟩ : ∃ k, k = n.factorization p := ⟨_, rfl⟩
  obtain ⟨n', hn'⟩ : ∃ n', n' = n / p ^ k := ⟨_, rfl⟩
  have hfac : n = p ^ k * n' := by
    rw [hn', hk]
    exact (Nat.ordProj_mul_ordCompl_eq_self n p).symm
  have hcop : Nat.Coprime p n' := by
    rw [hn', hk]
    exact Nat.coprime_ordCompl hp hn0.ne'
  have hn'm : (n' : ℤ) ∣ m := by
    have h1 : (n' : ℤ) ∣ (p : ℤ) ^ e * m := dvd_trans (by rw [hfac]; push_cast; exact dvd_mul_left _ _) hmult
    refine IsCoprime.dvd_of_dvd_mul_left ?_ h1
    exact (IsCoprime.pow_left (by exact_mod_cast Nat.isCoprime_iff_coprime.2 hcop)).symm
  rw [← hk]
  constructor
  · intro h
    have h1 : (p : ℤ) ^ k ∣ (p : ℤ) ^ j * m :=
      dvd_trans (by rw [hfac]; push_cast; exact dvd_mul_right _ _) h
    have h2 : IsCoprime ((p : ℤ) ^ k) m := by
      refine IsCoprime.pow_left ?_
      rw [Prime.coprime_iff_not_dvd (Nat.prime_iff_prime_int.1 hp)]
      exact hm
    have h3 : (p : ℤ) ^ k ∣ (p : ℤ) ^ j := h2.dvd_of_dvd_mul_right h1
    have h4 : p ^ k ∣ p ^ j := by exact_mod_cast h3
    exact (Nat.pow_dvd_pow_iff_le_right hp.one_lt).1 h4
  · intro h
    rw [hfac]
    push_cast
    exact mul_dvd_mul (pow_dvd_pow _ h) hn'm

theorem orderLoop_spec {P : G} {n : ℕ} (hn : addOrderOf P = n) (hn0 : 0 < n) {mult : ℤ}
    (hm0 : mult ≠ 0) (hmult : mult • P = 0) (fuel : ℕ) (hf : n ≤ fuel) (ps : List ℤ) (ans : ℤ)
    (hps : ps.Nodup) (hprime : ∀ p ∈ ps, 0 < p ∧ Prime p) (r : ℕ) (hr0 : 0 < r)
    (hr : ∀ p : ℕ, p.Prime → p ∣ r → (p : ℤ) ∈ ps)
    (hrn : ∀ p : ℕ, (p : ℤ) ∈ ps → r.factorization p = n.factorization p) :
    orderLoop fuel P mult ps ans = some (ans * r) := by
  induction ps generalizing ans r with
  | nil =>
    have : r = 1 := by
      by_contra h1
      obtain ⟨p, hp, hd⟩ := Nat.exists_prime_and_dvd h1
      exact absurd (hr p hp hd) (by simp)
    rw [orderLoop, this]
    simp
  | cons p ps ih =>
    obtain ⟨hp0, hp⟩ := hprime p (by simp)
    obtain ⟨p', rfl⟩ : ∃ p' : ℕ, p = p' := ⟨p.toNat, by omega⟩
    have hp' : p'.Prime := Nat.prime_iff_prime_int.2 hp
    obtain ⟨m, e, h1, h2, h3, -⟩ := Marith.Props.C06_divide_out mult p' hm0
      (by rw [abs_of_pos hp0]; exact_mod_cast hp'.two_le)
    obtain ⟨k, hk⟩ : ∃ k, k = n.factorization p' := ⟨_, rfl⟩
    have hpart := prime_part hn hn0 hp' (e := e) h3 (by rw [← h2]; exact hmult)
    have hkf : k ≤ fuel := by
      have : p' ^ k ≤ n := Nat.le_of_dvd hn0 (by rw [hk]; exact Nat.ordProj_dvd n p')
      exact (Nat.lt_pow_self hp'.one_lt).le.trans (this.trans hf)
    rw [orderLoop, h1]
    simp only []
    rw [killLoop_spec (p' : ℤ) k fuel (m • P) ans hkf ((hpart k).2 (by omega))
      (fun j hj hc => by have := (hpart j).1 hc; omega)]
    simp only []
    have hrk : r.factorization p' = k := by rw [hk]; exact hrn p' (by simp)
    obtain ⟨r', hr'⟩ : ∃ r', r' = r / p' ^ k := ⟨_, rfl⟩
    have hfac : r = p' ^ k * r' := by
      rw [hr', ← hrk]
      exact (Nat.ordProj_mul_ordCompl_eq_self r p').symm
    have hcop : Nat.Coprime p' r' := by
      rw [hr', ← hrk]
      exact Nat.coprime_ordCompl hp' hr0.ne'
    have hr'0 : 0 < r' := by
      rcases Nat.eq_zero_or_pos r' with h | h
      · rw [h, mul_zero] at hfac; omega
      · exact h
    have hnd := List.nodup_cons.1 hps
    rw [ih (ans * (p' : ℤ) ^ k) hnd.2 (fun q hq => hprime q (by simp [hq])) r' hr'0 ?_ ?_, hfac]
    · push_cast
      congr 1
      ring
    · intro q hq hqr
      have := hr q hq (by rw [hfac]; exact dvd_mul_of_dvd_right hqr _)
      rcases List.mem_cons.1 this with h | h
      · have : q = p' := by exact_mod_cast h
        rw [this] at hqr
        have := Nat.dvd_gcd (dvd_refl p') hqr
        rw [hcop] at this
        exact absurd (Nat.dvd_one.1 this) hp'.one_lt.ne'
      · exact h
    · intro q hq
      rw [← hrn q (by simp [hq]), hfac, Nat.factorization_mul (pow_ne_zero _ hp'.ne_zero) hr'0.ne',
        hp'.factorization_pow]
      have : q ≠ p' := by
        intro h
        rw [h] at hq
        exact hnd.1 hq
      simp [this.symm]

/-- **C67 (from a multiple).** `my_order_point(P, mult)` with `mult ≠ 0`, `mult P = 0` ends and
returns the order of `P`. -/
theorem C67_order_mult {pdivs : ℤ → List ℤ} (hpd : Curve.PdivsOk pdivs) (P : G) (mult : ℤ)
    (hm0 : mult ≠ 0) (hmult : mult • P = 0) (fuel : ℕ) (hf : mult.natAbs ≤ fuel) :
    orderMult pdivs fuel P mult = some (addOrderOf P : ℤ) := by
  unfold orderMult
  by_cases hP : P = 0
  · rw [if_pos hP, hP, addOrderOf_zero]
    rfl
  rw [if_neg hP]
  have hd : (addOrderOf P : ℤ) ∣ mult := addOrderOf_dvd_iff_zsmul_eq_zero.2 hmult
  have hn0 : 0 < addOrderOf P := by
    rcases Nat.eq_zero_or_pos (addOrderOf P) with h | h
    · rw [h] at hd
      simp at hd
      exact absurd hd hm0
    · exact h
  have hle : addOrderOf P ≤ mult.natAbs := Nat.le_of_dvd (by omega) (Int.natCast_dvd.1 hd)
  obtain ⟨h1, h2⟩ := hpd mult hm0
  rw [orderLoop_spec rfl hn0 hm0 hmult fuel (hle.trans hf) (pdivs mult) 1 h1
    (fun p hp => ⟨((h2 p).1 hp).1, ((h2 p).1 hp).2.1⟩) (addOrderOf P) hn0
    (fun p hp hpd => (h2 p).2 ⟨by exact_mod_cast hp.pos, Nat.prime_iff_prime_int.1 hp,
      dvd_trans (by exact_mod_cast hpd) hd⟩) (fun _ _ => rfl), one_mul]

/-- **C67 (from bounds).** `my_order_point(P, lower, upper)` with `0 < lower` returns the order of
`P` whenever some multiple of the order lies between the bounds. -/
theorem C67_order_bounds {key : G → κ} (hkey : KeyOk key) {pdivs : ℤ → List ℤ}
    (hpd : Curve.PdivsOk pdivs) (P : G) (lower upper : ℤ) (hl : 0 < lower)
    (hex : ∃ h, lower ≤ h ∧ h ≤ upper ∧ h • P = 0) (fuel : ℕ) (hf : upper ≤ fuel) :
    orderBounds key pdivs fuel P lower upper = some (addOrderOf P : ℤ) := by
  obtain ⟨h, a, b, c⟩ := hex
  obtain ⟨d1, d2, d3⟩ := (C66_found hkey P 0 lower upper hl.le (a.trans b)).1 ⟨h, a, b, c⟩
  exact C67_order_mult hpd P _ (by omega) d3 fuel (by omega)

/-- **C67 (outside the bounds).** When no multiple of the order lies in the interval (nor is
`upper + 1` one) the result is not an error but the number 1. -/
theorem C67_order_bounds_wrong {key : G → κ} (hkey : KeyOk key) {pdivs : ℤ → List ℤ}
    (hpd : Curve.PdivsOk pdivs) (P : G) (lower upper : ℤ) (hl : 0 ≤ lower) (hlu : lower ≤ upper)
    (hno : ∀ h, lower ≤ h → h ≤ upper + 1 → h • P ≠ 0) (fuel : ℕ) :
    orderBounds key pdivs fuel P lower upper = some 1 ∧ addOrderOf P ≠ 1 := by
  have h1 := (C66_found hkey P 0 lower upper hl hlu).2.2
    (fun h a b => hno h a (by split_ifs at b <;> omega))
  unfold orderBounds
  rw [h1, orderMult]
  have hempty : pdivs (-1) = [] := by
    rw [List.eq_nil_iff_forall_not_mem]
    intro p hp
    have := ((hpd (-1) (by omega)).2 p).1 hp
    exact this.2.1.not_dvd_one (by have := this.2.2; rwa [dvd_neg] at this)
  refine ⟨?_, ?_⟩
  · split_ifs
    · rfl
    · rw [hempty, orderLoop]
  · intro h
    rw [AddMonoid.addOrderOf_eq_one_iff] at h
    exact hno lower (le_refl _) (by omega) (by rw [h, smul_zero])

theorem sqrt_spec {q : ℤ} (hq : 0 ≤ q) {x : ℤ} (hx : x * x ≤ q) : x ≤ Int.sqrt q := by
  by_contra hlt
  push Not at hlt
  have h0 := Int.sqrt_nonneg q
  obtain ⟨y, rfl⟩ : ∃ y : ℕ, x = y := ⟨x.toNat, by omega⟩
  obtain ⟨r, rfl⟩ : ∃ r : ℕ, q = r := ⟨q.toNat, by omega⟩
  rw [Int.sqrt_natCast] at hlt
  have h2 : y * y ≤ r := by exact_mod_cast hx
  have := Nat.le_sqrt.2 h2
  omega

theorem sqrt_le {q : ℤ} (hq : 0 ≤ q) : Int.sqrt q * Int.sqrt q ≤ q := by
  obtain ⟨r, rfl⟩ : ∃ r : ℕ, q = r := ⟨q.toNat, by omega⟩
  rw [Int.sqrt_natCast]
  exact_mod_cast Nat.sqrt_le r

/-- the bounds set by `set_hasse_bounds` are those of the Hasse interval -/
theorem C67_hasse_bounds (q N : ℤ) (hq : 2 ≤ q) :
    0 < (hasseBounds q).1 ∧
    ((hasseBounds q).1 ≤ N ∧ N ≤ (hasseBounds q).2 ↔ (N - (q + 1)) ^ 2 ≤ 4 * q) := by
  unfold hasseBounds
  simp only []
  obtain ⟨u, hu⟩ : ∃ u, u = Int.sqrt (q * 4) := ⟨_, rfl⟩
  rw [← hu]
  have hu0 : 0 ≤ u := hu ▸ Int.sqrt_nonneg _
  have h1 : u * u ≤ q * 4 := hu ▸ sqrt_le (by omega)
  have h2 : ∀ x, x * x ≤ q * 4 → x ≤ u := fun x hx => hu ▸ sqrt_spec (by omega) hx
  have h3 : u ≤ q := by
    by_contra hc
    push Not at hc
    have h4 : q + 1 ≤ u := hc
    have h6 : (q + 1) * (q + 1) ≤ q * 4 := by nlinarith
    have h7 : (q - 1) * (q - 1) ≤ 0 := by linarith
    have : 1 ≤ q - 1 := by omega
    nlinarith
  rw [if_neg (by omega)]
  refine ⟨by omega, ?_, ?_⟩
  · rintro ⟨a, b⟩
    have e : |N - (q + 1)| ≤ u := abs_le.2 ⟨by linarith, by linarith⟩
    rw [← sq_abs]
    nlinarith [abs_nonneg (N - (q + 1))]
  · intro h
    have e : |N - (q + 1)| ≤ u := h2 _ (by rw [abs_mul_abs_self]; linarith)
    have := abs_le.1 e
    constructor <;> linarith

/-- `order_point(P)` is the order of `P` in `E(F_q)`, given Hasse's bound for the number of
points, here for any finite field; for prime fields see `C67_order_point`. -/
theorem order_point_of_hasse {F : Type} [Field F] [DecidableEq F] [Finite F]
    (E : WeierstrassCurve F) {pdivs : ℤ → List ℤ} (hpd : Curve.PdivsOk pdivs)
    (P : E.toAffine.Point) (q : ℤ) (hq : 2 ≤ q)
    (hasse : ((Nat.card E.toAffine.Point : ℤ) - (q + 1)) ^ 2 ≤ 4 * q)
    (fuel : ℕ) (hf : (hasseBounds q).2 ≤ fuel) :
    orderPoint xKey pdivs fuel q P = some (addOrderOf P : ℤ) := by
  obtain ⟨h1, h2⟩ := C67_hasse_bounds q (Nat.card E.toAffine.Point : ℤ) hq
  obtain ⟨h3, h4⟩ := h2.2 hasse
  exact C67_order_bounds xKey_ok hpd P _ _ h1 ⟨_, h3, h4, by
    rw [natCast_zsmul]; exact card_nsmul_eq_zero'⟩ fuel hf

/-! ### concrete cases: the point `p7`, of order 6, on a curve with 6 points over F_7 -/

theorem p7_order : addOrderOf p7 = 6 := by
  rw [addOrderOf_eq_iff (by omega)]
  decide +kernel

theorem p7_order_two : addOrderOf (2 • p7) = 3 := by
  rw [addOrderOf_eq_iff (by omega)]
  decide +kernel

theorem p7_order_three : addOrderOf (3 • p7) = 2 := by
  rw [addOrderOf_eq_iff (by omega)]
  decide +kernel

/-- the hypotheses of `C67_order_mult` and `C67_order_bounds` -/
example : (12 : ℤ) • p7 = 0 ∧ hasseBounds 7 = (3, 13) ∧
    bg xKey p7 0 3 13 = 6 ∧ orderLoop 12 p7 12 [2, 3] 1 = some 6 := by decide +kernel

/-- the hypotheses of `C67_order_bounds_wrong` -/
example : (∀ h : ℤ, 1 ≤ h → h ≤ 4 + 1 → h • p7 ≠ 0) := by
  intro h h1 h2
  have : h = 1 ∨ h = 2 ∨ h = 3 ∨ h = 4 ∨ h = 5 := by omega
  rcases this with rfl | rfl | rfl | rfl | rfl <;> decide +kernel

end Eclib.Pmod
