import Verif.Legendre.Lem3
import Verif.Marith.Props

/-!
# One step of the descent: the new certificate and the map of solutions
-/

namespace Eclib.Legendre

open Marith (XGcd invmod chrem)

/-- What holds in the last loop of `lem4_1` -/
structure Inv (v : Ctx) (aa n2 γ : ℤ) : Prop where
  cert : Cert v.a v.b v.c v.k1 v.k2 v.k3
  prim : ∀ d, d ∣ v.w1 → d ∣ v.w2 → d ∣ v.a
  lat : v.a ∣ v.c * v.w2 - v.k1 * v.w1
  eqn : v.b * v.w1 ^ 2 + v.c * v.w2 ^ 2 = v.a * (aa * v.cc * γ ^ 2)
  hbc : v.b * v.c = v.bb * v.cc
  hcc : v.cc = v.d1 * v.d2
  hc : v.c = v.d1 * v.m1
  hb : v.b = v.d2 * v.m2
  hd1 : v.d1 ∣ v.w1
  hd2 : v.d2 ∣ v.w2
  haa : aa = v.n3 * n2
  han : v.n3 ∣ v.a
  can : IsCoprime v.a n2
  c23 : IsCoprime n2 v.n3
  cab : IsCoprime aa v.bb
  cac : IsCoprime aa v.cc
  cbc : IsCoprime v.bb v.cc
  gb : IsCoprime γ v.b
  gc : IsCoprime γ v.c
  aa0 : aa ≠ 0
  g0 : 0 < γ
  cneg : v.cc < 0
  sgn : 0 < aa ∨ 0 < v.bb

section
variable {v : Ctx} {aa n2 γ : ℤ}

theorem Inv.hbb (h : Inv v aa n2 γ) : v.bb = v.m1 * v.m2 := by
  have hne : v.cc ≠ 0 := h.cneg.ne
  apply mul_right_cancel₀ hne
  rw [← h.hbc, h.hcc, h.hb, h.hc]; ring

theorem Inv.d10 (h : Inv v aa n2 γ) : v.d1 ≠ 0 := fun h0 => h.cert.c0 (by rw [h.hc, h0, zero_mul])
theorem Inv.d20 (h : Inv v aa n2 γ) : v.d2 ≠ 0 := fun h0 => h.cert.b0 (by rw [h.hb, h0, zero_mul])
theorem Inv.m10 (h : Inv v aa n2 γ) : v.m1 ≠ 0 := fun h0 => h.cert.c0 (by rw [h.hc, h0, mul_zero])
theorem Inv.m20 (h : Inv v aa n2 γ) : v.m2 ≠ 0 := fun h0 => h.cert.b0 (by rw [h.hb, h0, mul_zero])
theorem Inv.n20 (h : Inv v aa n2 γ) : n2 ≠ 0 := fun h0 => h.aa0 (by rw [h.haa, h0, mul_zero])

/-- `aa` is prime to `b` and `c` -/
theorem Inv.aabc (h : Inv v aa n2 γ) : IsCoprime aa (v.b * v.c) := by
  rw [h.hbc]; exact h.cab.mul_right h.cac
theorem Inv.aab (h : Inv v aa n2 γ) : IsCoprime aa v.b := h.aabc.of_isCoprime_of_dvd_right (Dvd.intro _ rfl)
theorem Inv.aac (h : Inv v aa n2 γ) : IsCoprime aa v.c := h.aabc.of_isCoprime_of_dvd_right (Dvd.intro_left _ rfl)
theorem Inv.n2aa (h : Inv v aa n2 γ) : n2 ∣ aa := by rw [h.haa]; exact Dvd.intro_left _ rfl
theorem Inv.n3aa (h : Inv v aa n2 γ) : v.n3 ∣ aa := by rw [h.haa]; exact Dvd.intro _ rfl
theorem Inv.n2b (h : Inv v aa n2 γ) : IsCoprime n2 v.b := h.aab.of_isCoprime_of_dvd_left h.n2aa
theorem Inv.n2c (h : Inv v aa n2 γ) : IsCoprime n2 v.c := h.aac.of_isCoprime_of_dvd_left h.n2aa

theorem Inv.m1c (h : Inv v aa n2 γ) : v.m1 ∣ v.c := by rw [h.hc]; exact Dvd.intro_left _ rfl
theorem Inv.d1c (h : Inv v aa n2 γ) : v.d1 ∣ v.c := by rw [h.hc]; exact Dvd.intro _ rfl
theorem Inv.m2b (h : Inv v aa n2 γ) : v.m2 ∣ v.b := by rw [h.hb]; exact Dvd.intro_left _ rfl
theorem Inv.d2b (h : Inv v aa n2 γ) : v.d2 ∣ v.b := by rw [h.hb]; exact Dvd.intro _ rfl
theorem Inv.m1m2 (h : Inv v aa n2 γ) : IsCoprime v.m1 v.m2 :=
  (h.cert.cbc.symm.of_isCoprime_of_dvd_left h.m1c).of_isCoprime_of_dvd_right h.m2b
theorem Inv.d2d1 (h : Inv v aa n2 γ) : IsCoprime v.d2 v.d1 :=
  (h.cert.cbc.of_isCoprime_of_dvd_left h.d2b).of_isCoprime_of_dvd_right h.d1c
theorem Inv.m2d2 (h : Inv v aa n2 γ) : IsCoprime v.m2 v.d2 := by
  have := h.cbc
  rw [h.hbb, h.hcc] at this
  exact (this.of_isCoprime_of_dvd_left (Dvd.intro_left _ rfl)).of_isCoprime_of_dvd_right (Dvd.intro_left _ rfl)
theorem Inv.m1cc (h : Inv v aa n2 γ) : IsCoprime v.m1 v.cc := by
  have := h.cbc
  rw [h.hbb] at this
  exact this.of_isCoprime_of_dvd_left (Dvd.intro _ rfl)
theorem Inv.m2cc (h : Inv v aa n2 γ) : IsCoprime v.m2 v.cc := by
  have := h.cbc
  rw [h.hbb] at this
  exact this.of_isCoprime_of_dvd_left (Dvd.intro_left _ rfl)
theorem Inv.m1d1 (h : Inv v aa n2 γ) : IsCoprime v.m1 v.d1 := by
  have := h.m1cc
  rw [h.hcc] at this
  exact this.of_isCoprime_of_dvd_right (Dvd.intro _ rfl)
theorem Inv.cc0 (h : Inv v aa n2 γ) : v.cc ≠ 0 := h.cneg.ne
theorem Inv.bb0 (h : Inv v aa n2 γ) : v.bb ≠ 0 := by rw [h.hbb]; exact mul_ne_zero h.m10 h.m20

/-- two numbers without a common prime factor -/
theorem coprime_of_prime {x y : ℤ} (h : ∀ p : ℤ, Prime p → p ∣ x → p ∣ y → False) :
    IsCoprime x y := by
  rw [Int.isCoprime_iff_gcd_eq_one]
  by_contra hg
  obtain ⟨p, hp, hd⟩ := Nat.exists_prime_and_dvd hg
  have hd' : (p : ℤ) ∣ (Int.gcd x y : ℤ) := by exact_mod_cast hd
  exact h p (Nat.prime_iff_prime_int.mp hp) (hd'.trans (Int.gcd_dvd_left _ _)) (hd'.trans (Int.gcd_dvd_right _ _))

theorem not_both {x y p : ℤ} (h : IsCoprime x y) (hp : Prime p) (h1 : p ∣ x) (h2 : p ∣ y) : False :=
  hp.not_isUnit (h.isUnit_of_dvd' h1 h2)

theorem Inv.w1n2 (h : Inv v aa n2 γ) : IsCoprime v.w1 n2 := by
  refine coprime_of_prime (fun p hp h1 h2 => ?_)
  have hx : p ∣ v.c * v.w2 ^ 2 := by
    have : v.c * v.w2 ^ 2 = v.a * (aa * v.cc * γ ^ 2) - v.b * v.w1 ^ 2 := by linear_combination h.eqn
    rw [this]
    refine dvd_sub ?_ ((h1.pow two_ne_zero).mul_left _)
    exact (((h2.trans h.n2aa).mul_right _).mul_right _).mul_left _
  rcases hp.dvd_or_dvd hx with hc | hw
  · exact not_both h.n2c hp h2 hc
  · exact not_both h.can hp (h.prim p h1 (hp.dvd_of_dvd_pow hw)) h2

theorem Inv.w2n2 (h : Inv v aa n2 γ) : IsCoprime v.w2 n2 := by
  refine coprime_of_prime (fun p hp h1 h2 => ?_)
  have hx : p ∣ v.b * v.w1 ^ 2 := by
    have : v.b * v.w1 ^ 2 = v.a * (aa * v.cc * γ ^ 2) - v.c * v.w2 ^ 2 := by linear_combination h.eqn
    rw [this]
    refine dvd_sub ?_ ((h1.pow two_ne_zero).mul_left _)
    exact (((h2.trans h.n2aa).mul_right _).mul_right _).mul_left _
  rcases hp.dvd_or_dvd hx with hc | hw
  · exact not_both h.n2b hp h2 hc
  · exact not_both h.can hp (h.prim p (hp.dvd_of_dvd_pow hw) h1) h2

theorem Inv.w1d2 (h : Inv v aa n2 γ) : IsCoprime v.w1 v.d2 := by
  refine coprime_of_prime (fun p hp h1 h2 => ?_)
  exact not_both h.cert.cab hp (h.prim p h1 (h2.trans h.hd2)) (h2.trans h.d2b)

theorem Inv.w2d1 (h : Inv v aa n2 γ) : IsCoprime v.w2 v.d1 := by
  refine coprime_of_prime (fun p hp h1 h2 => ?_)
  exact not_both h.cert.cca hp (h2.trans h.d1c) (h.prim p (h2.trans h.hd1) h1)

theorem chrem_coprime (X : XGcd) (a1 a2 m1 m2 : ℤ) (h1 : m1 ≠ 0) (hc : IsCoprime m1 m2) :
    m1 ∣ (chrem X a1 a2 m1 m2).1 - a1 ∧ m2 ∣ (chrem X a1 a2 m1 m2).1 - a2 := by
  have h := Marith.Props.C03_chrem X a1 a2 m1 m2 h1
  apply h.2.1
  rw [h.1]
  obtain ⟨u, w, huw⟩ := hc
  refine ⟨a1 + m1 * u * (a2 - a1), ⟨u * (a2 - a1), by ring⟩, ⟨-w * (a2 - a1), ?_⟩⟩
  linear_combination (a2 - a1) * huw

theorem invmod_coprime (X : XGcd) (a p : ℤ) (h : IsCoprime a p) : p ∣ a * invmod X a p - 1 :=
  Marith.invmod_spec X a p (Int.isCoprime_iff_gcd_eq_one.mp h)

/-- the values `w1star`, `w2star`, `gammastar` -/
structure Star (v : Ctx) (γ g w1s w2s gs : ℤ) : Prop where
  g0 : 0 < g
  e1 : v.w1 = g * w1s
  e2 : v.w2 = g * w2s
  e3 : γ = g * gs
  hd1 : v.d1 ∣ w1s
  hd2 : v.d2 ∣ w2s

theorem Star.eqn {g w1s w2s gs : ℤ} (h : Inv v aa n2 γ) (s : Star v γ g w1s w2s gs) :
    v.b * w1s ^ 2 + v.c * w2s ^ 2 = v.a * (aa * v.cc * gs ^ 2) := by
  have hg : g ^ 2 ≠ 0 := pow_ne_zero 2 s.g0.ne'
  apply mul_left_cancel₀ hg
  have := h.eqn
  rw [s.e1, s.e2, s.e3] at this
  linear_combination this

/-- the congruences for the new certificate -/
structure NewCong (v : Ctx) (aa n2 w1 w2 g l1 l2 l3 : ℤ) : Prop where
  n2 : n2 ∣ l1 * w2 + v.b * w1
  n3 : v.n3 ∣ l1 + v.k1
  m1 : v.m1 ∣ l2 * (v.a * g) - v.k3 * w1
  m2 : v.m2 ∣ l2 * (v.a * g) - v.k2 * w2
  d2 : v.d2 ∣ l3 * w1 - v.k2 * aa * g
  d1 : v.d1 ∣ l3 * w2 + v.k3 * aa * g

theorem inv_trick {m u i x l : ℤ} (hi : m ∣ u * i - 1) (hl : m ∣ l - x * i) : m ∣ l * u - x := by
  have : l * u - x = u * (l - x * i) + x * (u * i - 1) := by ring
  rw [this]
  exact dvd_add (hl.mul_left _) (hi.mul_left _)

theorem newCert_cong (X : XGcd) {g w1s w2s gs : ℤ} (h : Inv v aa n2 γ) (s : Star v γ g w1s w2s gs) :
    let kk := newCert X v aa n2 w1s w2s gs
    NewCong v aa n2 w1s w2s gs kk.1 kk.2.1 kk.2.2 := by
  intro kk
  have c1 : IsCoprime w2s n2 := h.w2n2.of_isCoprime_of_dvd_left (by rw [s.e2]; exact Dvd.intro_left _ rfl)
  have c2 : IsCoprime w1s v.d2 := h.w1d2.of_isCoprime_of_dvd_left (by rw [s.e1]; exact Dvd.intro_left _ rfl)
  have c3 : IsCoprime w2s v.d1 := h.w2d1.of_isCoprime_of_dvd_left (by rw [s.e2]; exact Dvd.intro_left _ rfl)
  have hgs : gs ∣ γ := by rw [s.e3]; exact Dvd.intro_left _ rfl
  have c4 : IsCoprime (v.a * gs) (v.b * v.c) := by
    refine IsCoprime.mul_left ?_ ?_
    · exact h.cert.cab.mul_right h.cert.cca.symm
    · exact (h.gb.of_isCoprime_of_dvd_left hgs).mul_right (h.gc.of_isCoprime_of_dvd_left hgs)
  have i1 := invmod_coprime X _ _ c1
  have i2 := invmod_coprime X _ _ c2
  have i3 := invmod_coprime X _ _ c3
  have i4 := invmod_coprime X _ _ c4
  have hm1 : v.m1 ∣ v.b * v.c := h.m1c.mul_left _
  have hm2 : v.m2 ∣ v.b * v.c := h.m2b.mul_right _
  have k1 := chrem_coprime X (-v.b * w1s * invmod X w2s n2) (-v.k1) n2 v.n3 h.n20 h.c23
  have k2 := chrem_coprime X (v.k3 * w1s * invmod X (v.a * gs) (v.b * v.c)) (v.k2 * w2s * invmod X (v.a * gs) (v.b * v.c))
    v.m1 v.m2 h.m10 h.m1m2
  have k3 := chrem_coprime X (v.k2 * aa * gs * invmod X w1s v.d2) (-v.k3 * aa * gs * invmod X w2s v.d1) v.d2 v.d1
    h.d20 h.d2d1
  refine ⟨?_, ?_, ?_, ?_, ?_, ?_⟩
  · have := inv_trick i1 k1.1
    simpa [kk, newCert, sub_eq_add_neg, neg_mul] using this
  · simpa [kk, newCert, sub_eq_add_neg] using k1.2
  · exact inv_trick (hm1.trans i4) k2.1
  · exact inv_trick (hm2.trans i4) k2.2
  · exact inv_trick i2 k3.1
  · have := inv_trick i3 k3.2
    simpa [kk, newCert, sub_eq_add_neg, neg_mul] using this

/-- squares: `l u ≡ x` with `x² ≡ y u²` -/
theorem sq_trick {m l u x y : ℤ} (hu : IsCoprime u m) (h1 : m ∣ l * u - x) (h2 : m ∣ x ^ 2 + y * u ^ 2) :
    m ∣ l ^ 2 + y := by
  have : m ∣ u ^ 2 * (l ^ 2 + y) := by
    have e : u ^ 2 * (l ^ 2 + y) = (l * u + x) * (l * u - x) + (x ^ 2 + y * u ^ 2) := by ring
    rw [e]
    exact dvd_add (h1.mul_left _) h2
  exact (hu.pow_left (m := 2)).symm.dvd_of_dvd_mul_left this

/-- the new certificate is a certificate for the new equation -/
theorem newCert_cert {g w1s w2s gs l1 l2 l3 : ℤ} (h : Inv v aa n2 γ) (s : Star v γ g w1s w2s gs)
    (k : NewCong v aa n2 w1s w2s gs l1 l2 l3) : Cert aa v.bb v.cc l1 l2 l3 := by
  have E := s.eqn h
  have hgs : gs ∣ γ := by rw [s.e3]; exact Dvd.intro_left _ rfl
  obtain ⟨f1, hf1⟩ := s.hd1
  obtain ⟨f2, hf2⟩ := s.hd2
  have hbb := h.hbb
  -- the equation divided by `d1 d2`
  have E' : v.m2 * v.d1 * f1 ^ 2 + v.m1 * v.d2 * f2 ^ 2 = v.a * aa * gs ^ 2 := by
    apply mul_left_cancel₀ (mul_ne_zero h.d10 h.d20)
    rw [hf1, hf2, h.hb, h.hc, h.hcc] at E
    linear_combination E
  refine ⟨h.aa0, h.bb0, h.cc0, h.cab, h.cbc, h.cac.symm, fun t => ?_, fun t => ?_, ?_, ?_, ?_⟩
  · have := h.cneg; omega
  · have := h.sgn; omega
  · -- modulo `aa`
    rw [h.haa]
    rw [← h.hbc]
    refine IsCoprime.mul_dvd h.c23.symm ?_ ?_
    · have e : l1 ^ 2 + v.b * v.c = (l1 - v.k1) * (l1 + v.k1) + (v.k1 ^ 2 + v.b * v.c) := by ring
      rw [e]
      exact dvd_add (k.n3.mul_left _) (h.han.trans h.cert.ha)
    · have cw : IsCoprime w2s n2 := h.w2n2.of_isCoprime_of_dvd_left (by rw [s.e2]; exact Dvd.intro_left _ rfl)
      refine sq_trick (x := -(v.b * w1s)) cw (by rw [sub_neg_eq_add]; exact k.n2) ?_
      have e : (-(v.b * w1s)) ^ 2 + v.b * v.c * w2s ^ 2 = v.b * (v.a * (aa * v.cc * gs ^ 2)) := by
        linear_combination v.b * E
      rw [e]
      exact (((h.n2aa.mul_right _).mul_right _).mul_left _).mul_left _
  · -- modulo `bb`
    rw [hbb]
    refine IsCoprime.mul_dvd h.m1m2 ?_ ?_
    · have cu : IsCoprime (v.a * gs) v.m1 :=
        (IsCoprime.mul_left h.cert.cca.symm (h.gc.of_isCoprime_of_dvd_left hgs)).of_isCoprime_of_dvd_right h.m1c
      refine sq_trick cu k.m1 ?_
      have e : (v.k3 * w1s) ^ 2 + v.cc * aa * (v.a * gs) ^ 2 = (v.k3 ^ 2 + v.a * v.b) * w1s ^ 2 + v.c * (v.a * w2s ^ 2) := by
        linear_combination (-v.a) * E
      rw [e]
      exact dvd_add ((h.m1c.trans h.cert.hc).mul_right _) (h.m1c.mul_right _)
    · have cu : IsCoprime (v.a * gs) v.m2 :=
        (IsCoprime.mul_left h.cert.cab (h.gb.of_isCoprime_of_dvd_left hgs)).of_isCoprime_of_dvd_right h.m2b
      refine sq_trick cu k.m2 ?_
      have e : (v.k2 * w2s) ^ 2 + v.cc * aa * (v.a * gs) ^ 2 = (v.k2 ^ 2 + v.c * v.a) * w2s ^ 2 + v.b * (v.a * w1s ^ 2) := by
        linear_combination (-v.a) * E
      rw [e]
      exact dvd_add ((h.m2b.trans h.cert.hb).mul_right _) (h.m2b.mul_right _)
  · -- modulo `cc`
    rw [h.hcc]
    refine IsCoprime.mul_dvd h.d2d1.symm ?_ ?_
    · have cw : IsCoprime w2s v.d1 := h.w2d1.of_isCoprime_of_dvd_left (by rw [s.e2]; exact Dvd.intro_left _ rfl)
      refine sq_trick (x := -(v.k3 * aa * gs)) cw (by rw [sub_neg_eq_add]; exact k.d1) ?_
      have e : (-(v.k3 * aa * gs)) ^ 2 + aa * v.bb * w2s ^ 2 =
          (v.k3 ^ 2 + v.a * v.b) * (aa * gs) ^ 2 - v.d1 * (aa * v.m2 ^ 2 * v.d2 * f1 ^ 2) := by
        rw [hbb, hf2, h.hb]
        linear_combination (aa * v.m2 * v.d2) * E'
      rw [e]
      exact dvd_sub ((h.d1c.trans h.cert.hc).mul_right _) (Dvd.intro _ rfl)
    · have cw : IsCoprime w1s v.d2 := h.w1d2.of_isCoprime_of_dvd_left (by rw [s.e1]; exact Dvd.intro_left _ rfl)
      refine sq_trick cw k.d2 ?_
      have e : (v.k2 * aa * gs) ^ 2 + aa * v.bb * w1s ^ 2 =
          (v.k2 ^ 2 + v.c * v.a) * (aa * gs) ^ 2 - v.d2 * (aa * v.m1 ^ 2 * v.d1 * f2 ^ 2) := by
        rw [hbb, hf1, h.hc]
        linear_combination (aa * v.m1 * v.d1) * E'
      rw [e]
      exact dvd_sub ((h.d2b.trans h.cert.hb).mul_right _) (Dvd.intro _ rfl)

/-- the congruences with the stars removed -/
theorem NewCong.unstar {g w1s w2s gs l1 l2 l3 : ℤ} (s : Star v γ g w1s w2s gs)
    (k : NewCong v aa n2 w1s w2s gs l1 l2 l3) : NewCong v aa n2 v.w1 v.w2 γ l1 l2 l3 := by
  refine ⟨?_, k.n3, ?_, ?_, ?_, ?_⟩
  · rw [s.e1, s.e2, show l1 * (g * w2s) + v.b * (g * w1s) = g * (l1 * w2s + v.b * w1s) by ring]
    exact k.n2.mul_left _
  · rw [s.e1, s.e3, show l2 * (v.a * (g * gs)) - v.k3 * (g * w1s) = g * (l2 * (v.a * gs) - v.k3 * w1s) by ring]
    exact k.m1.mul_left _
  · rw [s.e2, s.e3, show l2 * (v.a * (g * gs)) - v.k2 * (g * w2s) = g * (l2 * (v.a * gs) - v.k2 * w2s) by ring]
    exact k.m2.mul_left _
  · rw [s.e1, s.e3, show l3 * (g * w1s) - v.k2 * aa * (g * gs) = g * (l3 * w1s - v.k2 * aa * gs) by ring]
    exact k.d2.mul_left _
  · rw [s.e2, s.e3, show l3 * (g * w2s) + v.k3 * aa * (g * gs) = g * (l3 * w2s + v.k3 * aa * gs) by ring]
    exact k.d1.mul_left _

theorem dvd_cancel {m u x : ℤ} (hu : IsCoprime u m) (h : m ∣ u * x) : m ∣ x := hu.symm.dvd_of_dvd_mul_left h

/-- the map of solutions before the division by `n2` -/
theorem map_spec {l1 l2 l3 x1 y1 z1 f1 f2 : ℤ} (h : Inv v aa n2 γ) (k : NewCong v aa n2 v.w1 v.w2 γ l1 l2 l3)
    (S : Sol aa v.bb v.cc x1 y1 z1) (L : Lat aa v.bb v.cc l1 l2 l3 x1 y1 z1)
    (hf1 : v.w1 = v.d1 * f1) (hf2 : v.w2 = v.d2 * f2) {x y z : ℤ} (hx : x = -γ * aa * x1)
    (hy : y = v.m1 * f2 * y1 + v.w1 * z1) (hz : z = v.m2 * f1 * y1 - v.w2 * z1) :
    Sol v.a v.b v.c x y z ∧ Lat v.a v.b v.c v.k1 v.k2 v.k3 x y z ∧ n2 ∣ x ∧ n2 ∣ y ∧ n2 ∣ z := by
  have hbb := h.hbb
  have E' : v.m2 * v.d1 * f1 ^ 2 + v.m1 * v.d2 * f2 ^ 2 = v.a * aa * γ ^ 2 := by
    apply mul_left_cancel₀ (mul_ne_zero h.d10 h.d20)
    have E := h.eqn
    rw [hf1, hf2, h.hb, h.hc, h.hcc] at E
    linear_combination E
  have hsol : v.a * x ^ 2 + v.b * y ^ 2 + v.c * z ^ 2 = 0 := by
    have h1 := S.eqn
    rw [hbb, h.hcc] at h1
    rw [hx, hy, hz, h.hb, h.hc, hf1, hf2]
    linear_combination (v.m1 * v.m2 * y1 ^ 2 + v.d1 * v.d2 * z1 ^ 2) * E' + v.a * aa * γ ^ 2 * h1
  have hdx : n2 ∣ x := by rw [hx]; exact (h.n2aa.mul_left _).mul_right _
  have hdy : n2 ∣ y := by
    have c1 : IsCoprime (v.m2 * v.d2) n2 := by
      have := h.n2b.symm
      rwa [h.hb, mul_comm] at this
    apply dvd_cancel c1
    have e : v.m2 * v.d2 * y = v.w2 * (v.bb * y1 - l1 * z1) + z1 * (l1 * v.w2 + v.b * v.w1) := by
      rw [hy, hbb, hf2, h.hb]; ring
    rw [e]
    exact dvd_add ((h.n2aa.trans L.la).mul_left _) (k.n2.mul_left _)
  have hdz : n2 ∣ z := by
    have h2 : n2 ^ 2 ∣ v.c * z ^ 2 := by
      have e : v.c * z ^ 2 = -(v.a * x ^ 2 + v.b * y ^ 2) := by linear_combination hsol
      rw [e]
      exact (dvd_add ((pow_dvd_pow_of_dvd hdx 2).mul_left _) ((pow_dvd_pow_of_dvd hdy 2).mul_left _)).neg_right
    have h3 : n2 ^ 2 ∣ z ^ 2 := (h.n2c.pow_left (m := 2)).dvd_of_dvd_mul_left h2
    exact (Int.pow_dvd_pow_iff two_ne_zero).mp h3
  refine ⟨⟨hsol, ?_⟩, ⟨?_, ?_, ?_⟩, hdx, hdy, hdz⟩
  · rintro ⟨rx, ry, rz⟩
    have hne : v.a * aa * γ ^ 2 ≠ 0 := mul_ne_zero (mul_ne_zero h.cert.a0 h.aa0) (pow_ne_zero 2 h.g0.ne')
    rw [rx] at hx
    rw [ry] at hy
    rw [rz] at hz
    apply S.ne
    refine ⟨?_, ?_, ?_⟩
    · have : γ * aa * x1 = 0 := by linarith
      rcases mul_eq_zero.mp this with h' | h'
      · rcases mul_eq_zero.mp h' with h'' | h''
        · exact absurd h'' h.g0.ne'
        · exact absurd h'' h.aa0
      · exact h'
    · have : v.a * aa * γ ^ 2 * y1 = 0 := by
        rw [← E']
        rw [hf1] at hy
        rw [hf2] at hz
        linear_combination (-v.d2 * f2) * hy - (v.d1 * f1) * hz
      exact (mul_eq_zero.mp this).resolve_left hne
    · have : v.a * aa * γ ^ 2 * z1 = 0 := by
        rw [← E']
        rw [hf1] at hy
        rw [hf2] at hz
        linear_combination (-v.m2 * f1) * hy + (v.m1 * f2) * hz
      exact (mul_eq_zero.mp this).resolve_left hne
  · -- modulo `a`
    have c1 : IsCoprime v.d1 v.a := h.cert.cca.of_isCoprime_of_dvd_left h.d1c
    have hb1 : v.a ∣ v.b * v.w1 + v.k1 * v.w2 := by
      apply dvd_cancel h.cert.cca
      have e : v.c * (v.b * v.w1 + v.k1 * v.w2) =
          v.k1 * (v.c * v.w2 - v.k1 * v.w1) + v.w1 * (v.k1 ^ 2 + v.b * v.c) := by ring
      rw [e]
      exact dvd_add (h.lat.mul_left _) (h.cert.ha.mul_left _)
    apply dvd_cancel c1
    have e : v.d1 * (v.b * y - v.k1 * z) =
        v.m2 * y1 * (v.c * v.w2 - v.k1 * v.w1) + v.d1 * z1 * (v.b * v.w1 + v.k1 * v.w2) := by
      rw [hy, hz, h.hc, hf1, hf2, h.hb]; ring
    rw [e]
    exact dvd_add (h.lat.mul_left _) (hb1.mul_left _)
  · -- modulo `b = m2 d2`
    have hm2 : v.m2 ∣ v.c * z - v.k2 * x := by
      have cu : IsCoprime (v.cc * (v.a * γ)) v.m2 := by
        refine IsCoprime.mul_left h.m2cc.symm ?_
        exact (IsCoprime.mul_left h.cert.cab h.gb).of_isCoprime_of_dvd_right h.m2b
      apply dvd_cancel cu
      have hlb : v.m2 ∣ v.cc * z1 - l2 * x1 := (by rw [hbb]; exact Dvd.intro_left _ rfl : v.m2 ∣ v.bb).trans L.lb
      have e : v.cc * (v.a * γ) * (v.c * z - v.k2 * x) =
          v.m2 * (v.cc * (v.a * γ) * v.c * f1 * y1) - (v.c * v.w2 * v.a * γ) * (v.cc * z1 - l2 * x1)
          - v.c * v.w2 * x1 * (l2 * (v.a * γ) - v.k2 * v.w2) + v.m2 * (v.k2 * x1 * v.d2 * v.w1 ^ 2) := by
        rw [hx, hz]
        have E := h.eqn
        have : v.m2 * (v.k2 * x1 * v.d2 * v.w1 ^ 2) = v.k2 * x1 * (v.b * v.w1 ^ 2) := by rw [h.hb]; ring
        rw [this]
        linear_combination (-(v.k2 * x1)) * E
      rw [e]
      exact dvd_add (dvd_sub (dvd_sub (Dvd.intro _ rfl) (hlb.mul_left _)) (k.m2.mul_left _)) (Dvd.intro _ rfl)
    have hd2 : v.d2 ∣ v.c * z - v.k2 * x := by
      have cu : IsCoprime (aa * v.w1) v.d2 :=
        IsCoprime.mul_left (h.aab.of_isCoprime_of_dvd_right h.d2b) h.w1d2
      apply dvd_cancel cu
      have hlc : v.d2 ∣ aa * x1 - l3 * y1 := (by rw [h.hcc]; exact Dvd.intro_left _ rfl : v.d2 ∣ v.cc).trans L.lc
      have e : aa * v.w1 * (v.c * z - v.k2 * x) =
          v.k2 * γ * aa * v.w1 * (aa * x1 - l3 * y1) + v.k2 * γ * aa * y1 * (l3 * v.w1 - v.k2 * aa * γ)
          + aa ^ 2 * γ ^ 2 * y1 * (v.k2 ^ 2 + v.c * v.a) + v.d2 * (-(aa * v.w1 * v.c * f2 * z1)
            - aa * v.c * y1 * v.m1 * f2 ^ 2) := by
        rw [hx, hz, hf1, hf2]
        linear_combination (aa * v.c * y1) * E'
      rw [e]
      exact dvd_add (dvd_add (dvd_add (hlc.mul_left _) (k.d2.mul_left _)) ((h.d2b.trans h.cert.hb).mul_left _))
        (Dvd.intro _ rfl)
    have := IsCoprime.mul_dvd h.m2d2.symm hd2 hm2
    rwa [← h.hb] at this
  · -- modulo `c = m1 d1`
    have hm1 : v.m1 ∣ v.a * x - v.k3 * y := by
      have cu : IsCoprime (v.cc * (v.a * γ)) v.m1 := by
        refine IsCoprime.mul_left h.m1cc.symm ?_
        exact (IsCoprime.mul_left h.cert.cca.symm h.gc).of_isCoprime_of_dvd_right h.m1c
      apply dvd_cancel cu
      have hlb : v.m1 ∣ v.cc * z1 - l2 * x1 := (by rw [hbb]; exact Dvd.intro _ rfl : v.m1 ∣ v.bb).trans L.lb
      have e : v.cc * (v.a * γ) * (v.a * x - v.k3 * y) =
          v.m1 * (-(v.cc * (v.a * γ) * v.k3 * f2 * y1)) - (v.k3 * v.w1 * v.a * γ) * (v.cc * z1 - l2 * x1)
          - v.k3 * v.w1 * x1 * (l2 * (v.a * γ) - v.k3 * v.w1) - v.w1 ^ 2 * x1 * (v.k3 ^ 2 + v.a * v.b)
          - v.m1 * (v.a * x1 * v.d1 * v.w2 ^ 2) := by
        rw [hx, hy]
        have E := h.eqn
        have : v.m1 * (v.a * x1 * v.d1 * v.w2 ^ 2) = v.a * x1 * (v.c * v.w2 ^ 2) := by rw [h.hc]; ring
        rw [this]
        linear_combination (v.a * x1) * E
      rw [e]
      exact dvd_sub (dvd_sub (dvd_sub (dvd_sub (Dvd.intro _ rfl) (hlb.mul_left _)) (k.m1.mul_left _))
        ((h.m1c.trans h.cert.hc).mul_left _)) (Dvd.intro _ rfl)
    have hd1 : v.d1 ∣ v.a * x - v.k3 * y := by
      have cu : IsCoprime (aa * v.w2) v.d1 :=
        IsCoprime.mul_left (h.aac.of_isCoprime_of_dvd_right h.d1c) h.w2d1
      apply dvd_cancel cu
      have hlc : v.d1 ∣ aa * x1 - l3 * y1 := (by rw [h.hcc]; exact Dvd.intro _ rfl : v.d1 ∣ v.cc).trans L.lc
      have e : aa * v.w2 * (v.a * x - v.k3 * y) =
          -(v.a * γ * aa * v.w2) * (aa * x1 - l3 * y1) - v.a * γ * aa * y1 * (l3 * v.w2 + v.k3 * aa * γ)
          + v.d1 * (-(aa * v.w2 * v.k3 * f1 * z1) + aa * v.k3 * y1 * v.m2 * f1 ^ 2) := by
        rw [hx, hy, hf1, hf2]
        linear_combination (-(aa * v.k3 * y1)) * E'
      rw [e]
      exact dvd_add (dvd_sub (hlc.mul_left _) (k.d1.mul_left _)) (Dvd.intro _ rfl)
    have := IsCoprime.mul_dvd h.m1d1.symm hd1 hm1
    rwa [← h.hc] at this

/-- `mapBack` -/
theorem mapBack_spec {l1 l2 l3 x1 y1 z1 : ℤ} (h : Inv v aa n2 γ) (k : NewCong v aa n2 v.w1 v.w2 γ l1 l2 l3)
    (S : Sol aa v.bb v.cc x1 y1 z1) (L : Lat aa v.bb v.cc l1 l2 l3 x1 y1 z1) :
    let r := mapBack v aa n2 γ x1 y1 z1
    Sol v.a v.b v.c r.1 r.2.1 r.2.2 ∧ Lat v.a v.b v.c v.k1 v.k2 v.k3 r.1 r.2.1 r.2.2 := by
  intro r
  obtain ⟨f1, hf1⟩ := h.hd1
  obtain ⟨f2, hf2⟩ := h.hd2
  have q1 : v.w1.fdiv v.d1 = f1 := by rw [hf1, Int.mul_fdiv_cancel_left _ h.d10]
  have q2 : v.w2.fdiv v.d2 = f2 := by rw [hf2, Int.mul_fdiv_cancel_left _ h.d20]
  obtain ⟨s, l, ⟨X, hX⟩, ⟨Y, hY⟩, ⟨Z, hZ⟩⟩ := map_spec h k S L hf1 hf2 rfl rfl rfl
  have hr : r = mapBack v aa n2 γ x1 y1 z1 := rfl
  unfold mapBack at hr
  rw [q1, q2] at hr
  generalize -γ * aa * x1 = x at *
  generalize v.m1 * f2 * y1 + v.w1 * z1 = y at *
  generalize v.m2 * f1 * y1 - v.w2 * z1 = z at *
  by_cases hn : |n2| > 1
  · rw [if_pos hn] at hr
    rw [hX, hY, hZ, Int.mul_fdiv_cancel_left _ h.n20, Int.mul_fdiv_cancel_left _ h.n20,
      Int.mul_fdiv_cancel_left _ h.n20] at hr
    rw [hr]
    subst hX hY hZ
    refine ⟨⟨?_, ?_⟩, ⟨?_, ?_, ?_⟩⟩
    · have := s.eqn
      apply mul_left_cancel₀ (pow_ne_zero 2 h.n20)
      simp only
      linear_combination this
    · rintro ⟨t1, t2, t3⟩
      simp only at t1 t2 t3
      exact s.ne ⟨by rw [t1, mul_zero], by rw [t2, mul_zero], by rw [t3, mul_zero]⟩
    · have := l.la
      apply dvd_cancel h.can.symm
      simp only
      rwa [show n2 * (v.b * Y - v.k1 * Z) = v.b * (n2 * Y) - v.k1 * (n2 * Z) by ring]
    · have := l.lb
      apply dvd_cancel h.n2b
      simp only
      rwa [show n2 * (v.c * Z - v.k2 * X) = v.c * (n2 * Z) - v.k2 * (n2 * X) by ring]
    · have := l.lc
      apply dvd_cancel h.n2c
      simp only
      rwa [show n2 * (v.a * X - v.k3 * Y) = v.a * (n2 * X) - v.k3 * (n2 * Y) by ring]
  · rw [if_neg hn] at hr
    rw [hr]
    exact ⟨s, l⟩

end

end Eclib.Legendre
