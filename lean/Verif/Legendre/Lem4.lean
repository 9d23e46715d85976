import Verif.Legendre.Descent
import Mathlib.RingTheory.PrincipalIdealDomain
import Mathlib.NumberTheory.FLT.Basic

/-!
# `lem4_1` and `legendre_solve_cert_1`
-/

namespace Eclib.Legendre

open Marith (XGcd invmod chrem isqrt)

/-- What a result of `legendre_solve_cert_1` should be -/
def OutOk (a b c n p q : ℤ) : Out → Prop
  | .sol x y z => Sol a b c x y z ∧ Lat a b c n p q x y z
  | .sq i u => 1 < u ∧ ((i = 1 ∧ u ^ 2 ∣ a) ∨ (i = 2 ∧ u ^ 2 ∣ b) ∨ (i = 3 ∧ u ^ 2 ∣ c))
  | .bad => False

/-- `u = d/gcd(d,w)` for `d | w²` -/
theorem cofactor_spec {d w : ℤ} (hd : d ≠ 0) (h : d ∣ w ^ 2) :
    cofactor d w ^ 2 ∣ d ∧ (¬ cofactor d w > 1 → d ∣ w) := by
  obtain ⟨e, u, v, he, he0, hu, hv, hco, f1, f2⟩ := gcd_facts (n := w) hd
  unfold cofactor
  rw [he, f1]
  have hu0 : u ≠ 0 := fun h0 => hd (by rw [hu, h0, mul_zero])
  constructor
  · rw [sq_abs]
    have h1 : u ∣ e * v ^ 2 := by
      obtain ⟨k, hk⟩ := h
      refine ⟨k, ?_⟩
      apply mul_left_cancel₀ he0.ne'
      rw [hu, hv] at hk
      linear_combination hk
    have h2 : u ∣ e := (hco.pow_right (n := 2)).dvd_of_dvd_mul_right h1
    rw [hu, sq]
    exact mul_dvd_mul_right h2 u
  · intro h1
    have : |u| = 1 := by
      have := abs_pos.mpr hu0
      omega
    rw [hu, hv]
    refine mul_dvd_mul_left e ?_
    exact (Int.isUnit_iff_abs_eq.mpr this).dvd

theorem dvd_sq_of {u b c : ℤ} (hco : IsCoprime b c) (h1 : u ∣ b) (h2 : u ^ 2 ∣ b * c) : u ^ 2 ∣ b :=
  ((hco.of_isCoprime_of_dvd_left h1).pow_left (m := 2)).dvd_of_dvd_mul_right h2

/-- the recursive call does what it should for coefficients with `|ac| < B` -/
def RecOk (rec : ℤ → ℤ → ℤ → ℤ → ℤ → ℤ → Option Out) (B : ℕ) : Prop :=
  ∀ a b c n p q, Cert a b c n p q → |a * c| < B → ∃ o, rec a b c n p q = some o ∧ OutOk a b c n p q o

theorem gcd_pos {a b : ℤ} (h : a ≠ 0) : 0 < gcd a b := by exact_mod_cast Int.gcd_pos_of_ne_zero_left _ h

theorem dvd_fst (a b : ℤ) : gcd a b ∣ a := Int.gcd_dvd_left _ _
theorem dvd_snd (a b : ℤ) : gcd a b ∣ b := Int.gcd_dvd_right _ _

theorem dvd_of_sq_dvd {u x : ℤ} (h : u ^ 2 ∣ x) : u ∣ x := (dvd_pow_self u two_ne_zero).trans h

/-- the stars -/
theorem star_exists {v : Ctx} {aa n2 γ : ℤ} (h : Inv v aa n2 γ) : gcd v.w1 γ ∣ v.w2 := by
  have hg : gcd v.w1 γ ^ 2 ∣ v.c * v.w2 ^ 2 := by
    have e : v.c * v.w2 ^ 2 = v.a * (aa * v.cc * γ ^ 2) - v.b * v.w1 ^ 2 := by linear_combination h.eqn
    rw [e]
    exact dvd_sub (((pow_dvd_pow_of_dvd (dvd_snd _ _) 2).mul_left _).mul_left _)
      ((pow_dvd_pow_of_dvd (dvd_fst _ _) 2).mul_left _)
  have hc : IsCoprime (gcd v.w1 γ) v.c := h.gc.of_isCoprime_of_dvd_left (dvd_snd _ _)
  have := (hc.pow_left (m := 2)).dvd_of_dvd_mul_left hg
  exact (Int.pow_dvd_pow_iff two_ne_zero).mp this

theorem lem4Loop_spec (X : XGcd) (rec : ℤ → ℤ → ℤ → ℤ → ℤ → ℤ → Option Out) (B : ℕ) (hrec : RecOk rec B) (v : Ctx) :
    ∀ (k : ℕ) (aa n2 γ : ℤ), Inv v aa n2 γ → |aa * v.cc| < B → n2.natAbs ≤ k →
      ∃ o, lem4Loop X rec v k aa n2 γ = some o ∧ OutOk v.a v.b v.c v.k1 v.k2 v.k3 o := by
  intro k
  induction k with
  | zero =>
    intro aa n2 γ h _ hk
    exact absurd (Int.natAbs_eq_zero.mp (by omega)) h.n20
  | succ k ih =>
    intro aa n2 γ h hB hk
    unfold lem4Loop
    -- the stars
    have hgw2 := star_exists h
    have hgw1 := dvd_fst v.w1 γ
    have hgg := dvd_snd v.w1 γ
    have hg0 : 0 < gcd v.w1 γ := by exact_mod_cast Int.gcd_pos_of_ne_zero_right _ h.g0.ne'
    generalize gcd v.w1 γ = g at *
    obtain ⟨w1s, e1⟩ := hgw1
    obtain ⟨w2s, e2⟩ := hgw2
    obtain ⟨gs, e3⟩ := hgg
    have s1 : (if g > 1 then v.w1.fdiv g else v.w1) = w1s := by
      split_ifs with hg
      · rw [e1, Int.mul_fdiv_cancel_left _ hg0.ne']
      · have : g = 1 := by omega
        rw [e1, this, one_mul]
    have s2 : (if g > 1 then v.w2.fdiv g else v.w2) = w2s := by
      split_ifs with hg
      · rw [e2, Int.mul_fdiv_cancel_left _ hg0.ne']
      · have : g = 1 := by omega
        rw [e2, this, one_mul]
    have s3 : (if g > 1 then γ.fdiv g else γ) = gs := by
      split_ifs with hg
      · nth_rewrite 1 [e3]; rw [Int.mul_fdiv_cancel_left _ hg0.ne']
      · have : g = 1 := by omega
        rw [e3, this, one_mul]
    simp only [s1, s2, s3]
    -- the equation with stars
    have E : v.b * w1s ^ 2 + v.c * w2s ^ 2 = v.a * (aa * v.cc * gs ^ 2) := by
      apply mul_left_cancel₀ (pow_ne_zero 2 hg0.ne')
      have := h.eqn
      rw [e1, e2, e3] at this
      linear_combination this
    have q1 : v.d1 ∣ w1s ^ 2 := by
      have : v.d1 ∣ v.b * w1s ^ 2 := by
        have e : v.b * w1s ^ 2 = v.a * (aa * v.cc * gs ^ 2) - v.c * w2s ^ 2 := by linear_combination E
        rw [e, h.hcc]
        exact dvd_sub ⟨v.a * aa * v.d2 * gs ^ 2, by ring⟩ (h.d1c.mul_right _)
      exact (h.cert.cbc.symm.of_isCoprime_of_dvd_left h.d1c).dvd_of_dvd_mul_left this
    have q2 : v.d2 ∣ w2s ^ 2 := by
      have : v.d2 ∣ v.c * w2s ^ 2 := by
        have e : v.c * w2s ^ 2 = v.a * (aa * v.cc * gs ^ 2) - v.b * w1s ^ 2 := by linear_combination E
        rw [e, h.hcc]
        exact dvd_sub ⟨v.a * aa * v.d1 * gs ^ 2, by ring⟩ (h.d2b.mul_right _)
      exact (h.cert.cbc.of_isCoprime_of_dvd_left h.d2b).dvd_of_dvd_mul_left this
    obtain ⟨p1, p1'⟩ := cofactor_spec h.d10 q1
    obtain ⟨p2, p2'⟩ := cofactor_spec h.d20 q2
    by_cases t1 : g > 1 ∧ cofactor v.d1 w1s > 1
    · rw [if_pos t1]
      exact ⟨_, rfl, t1.2, Or.inr (Or.inr ⟨rfl, p1.trans h.d1c⟩)⟩
    rw [if_neg t1]
    by_cases t2 : g > 1 ∧ cofactor v.d2 w2s > 1
    · rw [if_pos t2]
      exact ⟨_, rfl, t2.2, Or.inr (Or.inl ⟨rfl, p2.trans h.d2b⟩)⟩
    rw [if_neg t2]
    have hst : Star v γ g w1s w2s gs := by
      refine ⟨hg0, e1, e2, e3, ?_, ?_⟩
      · by_cases hg : g > 1
        · exact p1' (fun hc => t1 ⟨hg, hc⟩)
        · have : g = 1 := by omega
          have := h.hd1
          rw [e1, ‹g = 1›, one_mul] at this
          exact this
      · by_cases hg : g > 1
        · exact p2' (fun hc => t2 ⟨hg, hc⟩)
        · have : g = 1 := by omega
          have := h.hd2
          rw [e2, ‹g = 1›, one_mul] at this
          exact this
    have hK := newCert_cong X h hst
    simp only at hK
    generalize newCert X v aa n2 w1s w2s gs = kk at *
    have hC := newCert_cert h hst hK
    obtain ⟨o, ho, hok⟩ := hrec _ _ _ _ _ _ hC hB
    rw [ho]
    cases o with
    | sol x1 y1 z1 =>
      obtain ⟨S, L⟩ := hok
      exact ⟨_, rfl, mapBack_spec h (hK.unstar hst) S L⟩
    | bad => exact hok.elim
    | sq i u =>
      obtain ⟨hu, hcase⟩ := hok
      simp only
      by_cases hi : i = 1
      · rw [if_pos hi]
        have hua : u ^ 2 ∣ aa := by
          rcases hcase with c | c | c
          · exact c.2
          · omega
          · omega
        by_cases hd : gcd u v.n3 > 1
        · rw [if_pos hd]
          refine ⟨_, rfl, hd, Or.inl ⟨rfl, ?_⟩⟩
          have : gcd u v.n3 ^ 2 ∣ v.n3 := by
            refine dvd_sq_of h.c23.symm (dvd_snd _ _) ?_
            rw [← h.haa]
            exact (pow_dvd_pow_of_dvd (dvd_fst _ _) 2).trans hua
          exact this.trans h.han
        · rw [if_neg hd]
          have hco : IsCoprime u v.n3 := coprime_of_gcd_le (by omega) hd
          obtain ⟨n2', hn2⟩ : u ^ 2 ∣ n2 := by
            rw [h.haa] at hua
            exact (hco.pow_left (m := 2)).dvd_of_dvd_mul_left hua
          have hu2 : u ^ 2 ≠ 0 := pow_ne_zero 2 (by omega)
          have r1 : n2.fdiv (u ^ 2) = n2' := by rw [hn2, Int.mul_fdiv_cancel_left _ hu2]
          have haa' : aa = u ^ 2 * (v.n3 * n2') := by rw [h.haa, hn2]; ring
          have r2 : aa.fdiv (u ^ 2) = v.n3 * n2' := by
            nth_rewrite 1 [haa']; rw [Int.mul_fdiv_cancel_left _ hu2]
          rw [r1, r2]
          have hudaa : u ∣ aa := (dvd_of_sq_dvd hua)
          have hdaa : v.n3 * n2' ∣ aa := by rw [haa']; exact Dvd.intro_left _ rfl
          have hdn : n2' ∣ n2 := by rw [hn2]; exact Dvd.intro_left _ rfl
          have hu4 : 4 ≤ u ^ 2 := by nlinarith
          have hn2'0 : n2' ≠ 0 := fun h0 => h.n20 (by rw [hn2, h0, mul_zero])
          have hn30 : v.n3 ≠ 0 := fun h0 => h.aa0 (by rw [h.haa, h0, zero_mul])
          refine ih (v.n3 * n2') n2' (γ * u) ?_ ?_ ?_
          · refine { h with
              eqn := ?_, haa := rfl, can := h.can.of_isCoprime_of_dvd_right hdn
              c23 := h.c23.of_isCoprime_of_dvd_left hdn, cab := h.cab.of_isCoprime_of_dvd_left hdaa
              cac := h.cac.of_isCoprime_of_dvd_left hdaa
              gb := IsCoprime.mul_left h.gb (h.aab.of_isCoprime_of_dvd_left hudaa)
              gc := IsCoprime.mul_left h.gc (h.aac.of_isCoprime_of_dvd_left hudaa)
              aa0 := mul_ne_zero hn30 hn2'0, g0 := mul_pos h.g0 (by omega), sgn := ?_ }
            · rw [h.eqn, haa']; ring
            · rcases h.sgn with hs | hs
              · left
                rw [haa'] at hs
                exact pos_of_mul_pos_right hs (by positivity)
              · right; exact hs
          · refine lt_of_le_of_lt ?_ hB
            rw [haa', mul_assoc (u ^ 2), abs_mul (u ^ 2)]
            have : 1 ≤ |u ^ 2| := by rw [abs_of_nonneg (by positivity)]; omega
            exact le_mul_of_one_le_left (abs_nonneg _) this
          · have : n2.natAbs = (u ^ 2).natAbs * n2'.natAbs := by rw [hn2, Int.natAbs_mul]
            have h3 : 4 ≤ (u ^ 2).natAbs := by omega
            have h4 : 0 < n2'.natAbs := Int.natAbs_pos.mpr hn2'0
            have : 4 * n2'.natAbs ≤ n2.natAbs := by rw [this]; exact Nat.mul_le_mul_right _ h3
            omega
      · rw [if_neg hi]
        have hubc : u ^ 2 ∣ v.b * v.c := by
          rw [h.hbc]
          rcases hcase with c | c | c
          · exact absurd c.1 hi
          · exact c.2.mul_right _
          · exact c.2.mul_left _
        by_cases hd : gcd u v.b > 1
        · rw [if_pos hd]
          exact ⟨_, rfl, hd, Or.inr (Or.inl ⟨rfl, dvd_sq_of h.cert.cbc (dvd_snd _ _)
            ((pow_dvd_pow_of_dvd (dvd_fst _ _) 2).trans hubc)⟩)⟩
        rw [if_neg hd]
        by_cases hd' : gcd u v.c > 1
        · rw [if_pos hd']
          exact ⟨_, rfl, hd', Or.inr (Or.inr ⟨rfl, dvd_sq_of h.cert.cbc.symm (dvd_snd _ _)
            (by rw [mul_comm]; exact (pow_dvd_pow_of_dvd (dvd_fst _ _) 2).trans hubc)⟩)⟩
        · exfalso
          have c1 := coprime_of_gcd_le (by omega) hd
          have c2 := coprime_of_gcd_le (by omega) hd'
          have c3 : IsCoprime u (v.b * v.c) := c1.mul_right c2
          have : u ∣ v.b * v.c := (dvd_of_sq_dvd hubc)
          have := c3.isUnit_of_dvd' dvd_rfl this
          rw [Int.isUnit_iff] at this
          omega

/-- What holds after the checks for `alpha` -/
structure PreB (a b c k1 k2 k3 w1 w2 aa bb cc γ : ℤ) : Prop where
  cert : Cert a b c k1 k2 k3
  prim : ∀ d, d ∣ w1 → d ∣ w2 → d ∣ a
  lat : a ∣ c * w2 - k1 * w1
  eqn : b * w1 ^ 2 + c * w2 ^ 2 = a * (aa * cc * γ ^ 2)
  hbc : b * c = bb * cc
  cab : IsCoprime aa bb
  cac : IsCoprime aa cc
  cbc : IsCoprime bb cc
  aa0 : aa ≠ 0
  g0 : 0 < γ
  cneg : cc < 0
  sgn : 0 < aa ∨ 0 < bb

theorem natAbs_le_mul {x y : ℤ} (hy : y ≠ 0) : x.natAbs ≤ (y * x).natAbs := by
  rw [Int.natAbs_mul]
  exact Nat.le_mul_of_pos_left _ (Int.natAbs_pos.mpr hy)

theorem abs_le_abs_of_dvd {x y : ℤ} (hy : y ≠ 0) (h : x ∣ y) : |x| ≤ |y| := by
  obtain ⟨k, rfl⟩ := h
  rw [abs_mul]
  have : 1 ≤ |k| := Int.one_le_abs (fun h0 => hy (by rw [h0, mul_zero]))
  exact le_mul_of_one_le_right (abs_nonneg _) this

theorem lem4c_spec (X : XGcd) (rec : ℤ → ℤ → ℤ → ℤ → ℤ → ℤ → Option Out) (B : ℕ) (hrec : RecOk rec B) (fuel : ℕ)
    {a b c k1 k2 k3 w1 w2 aa bb cc γ d1 d2 : ℤ} (h : PreB a b c k1 k2 k3 w1 w2 aa bb cc γ)
    (hcc : cc = d1 * d2) (hc : d1 ∣ c) (hb : d2 ∣ b) (hd1 : d1 ∣ w1) (hd2 : d2 ∣ w2) (gb : IsCoprime γ b)
    (gc : IsCoprime γ c) (hB : |aa * cc| < B) (hf : aa.natAbs ≤ fuel) :
    ∃ o, lem4c X rec fuel a b c k1 k2 k3 w1 w2 aa bb cc γ d1 d2 = some o ∧ OutOk a b c k1 k2 k3 o := by
  unfold lem4c
  obtain ⟨⟨e1, e2⟩, ⟨p3, p1, p2⟩, c12, c13, c23⟩ := lem3_spec a aa h.cert.a0 h.aa0
  generalize lem3 a aa = l at *
  have d10 : d1 ≠ 0 := fun h0 => h.cneg.ne (by rw [hcc, h0, zero_mul])
  have d20 : d2 ≠ 0 := fun h0 => h.cneg.ne (by rw [hcc, h0, mul_zero])
  obtain ⟨m1, hm1⟩ := hc
  obtain ⟨m2, hm2⟩ := hb
  have q1 : c.fdiv d1 = m1 := by rw [hm1, Int.mul_fdiv_cancel_left _ d10]
  have q2 : b.fdiv d2 = m2 := by rw [hm2, Int.mul_fdiv_cancel_left _ d20]
  simp only [q1, q2]
  by_cases hc1 : l.c1 > 1
  · rw [if_pos hc1]
    exact ⟨_, rfl, hc1, Or.inl ⟨rfl, ⟨l.m1 * l.m3, by rw [e1]; ring⟩⟩⟩
  rw [if_neg hc1]
  have hl1 : l.c1 = 1 := by omega
  have r1 : (if l.c2 > 1 then aa.fdiv (l.c2 ^ 2) else aa) = l.m3 * l.m2 := by
    split_ifs with h2
    · have : aa = l.c2 ^ 2 * (l.m3 * l.m2) := by rw [e2]; ring
      rw [this, Int.mul_fdiv_cancel_left _ (pow_ne_zero 2 p2.ne')]
    · have : l.c2 = 1 := by omega
      rw [e2, this]; ring
  have r2 : (if l.c2 > 1 then γ * l.c2 else γ) = γ * l.c2 := by
    split_ifs with h2
    · rfl
    · have : l.c2 = 1 := by omega
      rw [this, mul_one]
  rw [r1, r2]
  have hdaa : l.m3 * l.m2 ∣ aa := ⟨l.c2 ^ 2, by rw [e2]; ring⟩
  have hdc2 : l.c2 ∣ aa := ⟨l.c2 * l.m2 * l.m3, by rw [e2]; ring⟩
  have haabc : IsCoprime aa (b * c) := by rw [h.hbc]; exact h.cab.mul_right h.cac
  have haab : IsCoprime aa b := haabc.of_isCoprime_of_dvd_right (Dvd.intro _ rfl)
  have haac : IsCoprime aa c := haabc.of_isCoprime_of_dvd_right (Dvd.intro_left _ rfl)
  have hne : l.m3 * l.m2 ≠ 0 := fun h0 => h.aa0 (by
    have : aa = l.c2 ^ 2 * (l.m3 * l.m2) := by rw [e2]; ring
    rw [this, h0, mul_zero])
  have ha' : a = l.m3 * l.m1 := by rw [e1, hl1]; ring
  have hinv : Inv ⟨a, b, c, k1, k2, k3, w1, w2, bb, cc, d1, d2, m1, m2, l.m3⟩ (l.m3 * l.m2) l.m2 (γ * l.c2) := by
    refine ⟨h.cert, h.prim, h.lat, ?_, h.hbc, hcc, hm1, hm2, hd1, hd2, rfl, ?_, ?_, c23,
      h.cab.of_isCoprime_of_dvd_left hdaa, h.cac.of_isCoprime_of_dvd_left hdaa, h.cbc,
      IsCoprime.mul_left gb (haab.of_isCoprime_of_dvd_left hdc2), IsCoprime.mul_left gc (haac.of_isCoprime_of_dvd_left hdc2),
      hne, mul_pos h.g0 p2, h.cneg, ?_⟩
    · simp only
      rw [h.eqn]
      nth_rewrite 1 [e2]
      ring
    · simp only; rw [ha']; exact Dvd.intro _ rfl
    · simp only; rw [ha']; exact IsCoprime.mul_left c23.symm c12
    · rcases h.sgn with hs | hs
      · left
        have : aa = l.c2 ^ 2 * (l.m3 * l.m2) := by rw [e2]; ring
        rw [this] at hs
        exact pos_of_mul_pos_right hs (by positivity)
      · right; exact hs
  refine lem4Loop_spec X rec B hrec _ fuel (l.m3 * l.m2) l.m2 (γ * l.c2) hinv ?_ ?_
  · refine lt_of_le_of_lt ?_ hB
    exact abs_le_abs_of_dvd (mul_ne_zero h.aa0 h.cneg.ne) (mul_dvd_mul_right hdaa cc)
  · refine le_trans ?_ hf
    refine le_trans (natAbs_le_mul p3.ne') ?_
    exact Nat.le_of_dvd (Int.natAbs_pos.mpr h.aa0) (Int.natAbs_dvd_natAbs.mpr hdaa)

theorem lem4b_spec (X : XGcd) (rec : ℤ → ℤ → ℤ → ℤ → ℤ → ℤ → Option Out) (B : ℕ) (hrec : RecOk rec B) (fuel : ℕ)
    {a b c k1 k2 k3 w1 w2 aa bb cc γ : ℤ} (h : PreB a b c k1 k2 k3 w1 w2 aa bb cc γ)
    (hB : |aa * cc| < B) (hf : aa.natAbs ≤ fuel) :
    ∃ o, lem4b X rec fuel a b c k1 k2 k3 w1 w2 aa bb cc γ = some o ∧ OutOk a b c k1 k2 k3 o := by
  unfold lem4b
  obtain ⟨d1, d2, m1, hd1, hd10, e1, e2, hco, f1, f2⟩ := gcd_facts (m := cc) (n := c) h.cneg.ne
  simp only [hd1, f1]
  have d2b : d2 ∣ b := by
    have : d2 ∣ b * m1 := by
      refine ⟨bb, ?_⟩
      apply mul_left_cancel₀ hd10.ne'
      have := h.hbc
      rw [e1, e2] at this
      linear_combination this
    exact hco.dvd_of_dvd_mul_right this
  have d1c : d1 ∣ c := by rw [e2]; exact Dvd.intro _ rfl
  have d20 : d2 ≠ 0 := fun h0 => h.cneg.ne (by rw [e1, h0, mul_zero])
  have q1 : d1 ∣ w1 ^ 2 := by
    have : d1 ∣ b * w1 ^ 2 := by
      have e : b * w1 ^ 2 = a * (aa * cc * γ ^ 2) - c * w2 ^ 2 := by linear_combination h.eqn
      rw [e, e1]
      exact dvd_sub ⟨a * aa * d2 * γ ^ 2, by ring⟩ (d1c.mul_right _)
    exact (h.cert.cbc.symm.of_isCoprime_of_dvd_left d1c).dvd_of_dvd_mul_left this
  have q2 : d2 ∣ w2 ^ 2 := by
    have : d2 ∣ c * w2 ^ 2 := by
      have e : c * w2 ^ 2 = a * (aa * cc * γ ^ 2) - b * w1 ^ 2 := by linear_combination h.eqn
      rw [e, e1]
      exact dvd_sub ⟨a * aa * d1 * γ ^ 2, by ring⟩ (d2b.mul_right _)
    exact (h.cert.cbc.of_isCoprime_of_dvd_left d2b).dvd_of_dvd_mul_left this
  obtain ⟨p1, p1'⟩ := cofactor_spec hd10.ne' q1
  obtain ⟨p2, p2'⟩ := cofactor_spec d20 q2
  by_cases t1 : cofactor d1 w1 > 1
  · rw [if_pos t1]
    exact ⟨_, rfl, t1, Or.inr (Or.inr ⟨rfl, p1.trans d1c⟩)⟩
  rw [if_neg t1]
  by_cases t2 : cofactor d2 w2 > 1
  · rw [if_pos t2]
    exact ⟨_, rfl, t2, Or.inr (Or.inl ⟨rfl, p2.trans d2b⟩)⟩
  rw [if_neg t2]
  -- `gcd(b,gamma)`
  have db : gcd b γ ∣ b := dvd_fst _ _
  have dg : gcd b γ ∣ γ := dvd_snd _ _
  have d0 : 0 < gcd b γ := gcd_pos h.cert.b0
  have hgcd : ¬ gcd b γ > 1 → IsCoprime γ b := fun hh => (coprime_of_gcd_le h.cert.b0 hh).symm
  generalize gcd b γ = d at *
  have q3 : d ∣ w2 ^ 2 := by
    have : d ∣ c * w2 ^ 2 := by
      have e : c * w2 ^ 2 = a * (aa * cc * γ ^ 2) - b * w1 ^ 2 := by linear_combination h.eqn
      rw [e]
      exact dvd_sub (((dg.pow two_ne_zero).mul_left _).mul_left _) (db.mul_right _)
    exact (h.cert.cbc.of_isCoprime_of_dvd_left db).dvd_of_dvd_mul_left this
  obtain ⟨p3, p3'⟩ := cofactor_spec d0.ne' q3
  by_cases t3 : cofactor d w2 > 1
  · rw [if_pos t3]
    exact ⟨_, rfl, t3, Or.inr (Or.inl ⟨rfl, p3.trans db⟩)⟩
  rw [if_neg t3]
  by_cases t4 : d > 1
  · rw [if_pos t4]
    refine ⟨_, rfl, t4, Or.inr (Or.inl ⟨rfl, ?_⟩)⟩
    have hdw2 := p3' t3
    have hco : IsCoprime d w1 := coprime_of_prime (fun p hp u1 u2 =>
      not_both h.cert.cab hp (h.prim p u2 (u1.trans hdw2)) (u1.trans db))
    have : d ^ 2 ∣ b * w1 ^ 2 := by
      have e : b * w1 ^ 2 = a * (aa * cc * γ ^ 2) - c * w2 ^ 2 := by linear_combination h.eqn
      rw [e]
      exact dvd_sub (((pow_dvd_pow_of_dvd dg 2).mul_left _).mul_left _) ((pow_dvd_pow_of_dvd hdw2 2).mul_left _)
    exact (hco.pow (m := 2) (n := 2)).dvd_of_dvd_mul_right this
  rw [if_neg t4]
  have gb := hgcd t4
  -- `gcd(c,gamma)`
  have d'b : gcd c γ ∣ c := dvd_fst _ _
  have d'g : gcd c γ ∣ γ := dvd_snd _ _
  have d'0 : 0 < gcd c γ := gcd_pos h.cert.c0
  have hgcd' : ¬ gcd c γ > 1 → IsCoprime γ c := fun hh => (coprime_of_gcd_le h.cert.c0 hh).symm
  generalize gcd c γ = d' at *
  have q4 : d' ∣ w1 ^ 2 := by
    have : d' ∣ b * w1 ^ 2 := by
      have e : b * w1 ^ 2 = a * (aa * cc * γ ^ 2) - c * w2 ^ 2 := by linear_combination h.eqn
      rw [e]
      exact dvd_sub (((d'g.pow two_ne_zero).mul_left _).mul_left _) (d'b.mul_right _)
    exact (h.cert.cbc.symm.of_isCoprime_of_dvd_left d'b).dvd_of_dvd_mul_left this
  obtain ⟨p4, p4'⟩ := cofactor_spec d'0.ne' q4
  by_cases t5 : cofactor d' w1 > 1
  · rw [if_pos t5]
    exact ⟨_, rfl, t5, Or.inr (Or.inr ⟨rfl, p4.trans d'b⟩)⟩
  rw [if_neg t5]
  by_cases t6 : d' > 1
  · rw [if_pos t6]
    refine ⟨_, rfl, t6, Or.inr (Or.inr ⟨rfl, ?_⟩)⟩
    have hdw1 := p4' t5
    have hco : IsCoprime d' w2 := coprime_of_prime (fun p hp u1 u2 =>
      not_both h.cert.cca hp (u1.trans d'b) (h.prim p (u1.trans hdw1) u2))
    have : d' ^ 2 ∣ c * w2 ^ 2 := by
      have e : c * w2 ^ 2 = a * (aa * cc * γ ^ 2) - b * w1 ^ 2 := by linear_combination h.eqn
      rw [e]
      exact dvd_sub (((pow_dvd_pow_of_dvd d'g 2).mul_left _).mul_left _) ((pow_dvd_pow_of_dvd hdw1 2).mul_left _)
    exact (hco.pow (m := 2) (n := 2)).dvd_of_dvd_mul_right this
  rw [if_neg t6]
  exact lem4c_spec X rec B hrec fuel h e1 d1c d2b (p1' t1) (p2' t2) gb (hgcd' t6) hB hf

/-- What holds after the call of `minv` -/
structure PreA (a b c k1 k2 k3 w1 w2 : ℤ) : Prop where
  cert : Cert a b c k1 k2 k3
  prim : ∀ d, d ∣ w1 → d ∣ w2 → d ∣ a
  lat : a ∣ c * w2 - k1 * w1
  norm : 3 * (|b| * w1 ^ 2 + |c| * w2 ^ 2) ^ 2 ≤ 4 * (|b| * |c|) * a ^ 2
  ne : w1 ≠ 0 ∨ w2 ≠ 0

theorem lem4a_spec (X : XGcd) (rec : ℤ → ℤ → ℤ → ℤ → ℤ → ℤ → Option Out) (B : ℕ) (hrec : RecOk rec B) (fuel : ℕ)
    {a b c k1 k2 k3 w1 w2 : ℤ} (h : PreA a b c k1 k2 k3 w1 w2) (hb2 : 2 ≤ |b|) (hns : ∀ r : ℤ, 1 < r → |b| ≠ r ^ 2)
    (hB : |b * c| ≤ B) (hf : B ≤ fuel) :
    ∃ o, lem4a X rec fuel a b c k1 k2 k3 w1 w2 = some o ∧ OutOk a b c k1 k2 k3 o := by
  unfold lem4a
  have hC := h.cert
  have hbc0 : b * c ≠ 0 := mul_ne_zero hC.b0 hC.c0
  -- `a` divides `b w1² + c w2²`
  obtain ⟨t, ht⟩ : a ∣ b * w1 ^ 2 + c * w2 ^ 2 := by
    apply dvd_cancel hC.cca
    have e : c * (b * w1 ^ 2 + c * w2 ^ 2) = (c * w2 + k1 * w1) * (c * w2 - k1 * w1) + w1 ^ 2 * (k1 ^ 2 + b * c) := by ring
    rw [e]
    exact dvd_add (h.lat.mul_left _) (hC.ha.mul_left _)
  have hq : (b * w1 ^ 2 + c * w2 ^ 2).fdiv a = t := by rw [ht, Int.mul_fdiv_cancel_left _ hC.a0]
  rw [hq]
  have ht0 : t ≠ 0 := by
    intro h0
    rw [h0, mul_zero] at ht
    have hw2 : w2 ≠ 0 := by
      intro hw
      rw [hw] at ht
      have : b * w1 ^ 2 = 0 := by linarith
      rcases mul_eq_zero.mp this with h' | h'
      · exact hC.b0 h'
      · have : w1 = 0 := pow_eq_zero_iff two_ne_zero |>.mp h'
        rcases h.ne with n | n
        · exact n this
        · exact n hw
    obtain ⟨m, hm⟩ : w2 ∣ b * w1 := by
      rw [← Int.pow_dvd_pow_iff two_ne_zero]
      exact ⟨-(b * c), by linear_combination b * ht⟩
    have hm2 : b * -c = m ^ 2 := by
      apply mul_left_cancel₀ (pow_ne_zero 2 hw2)
      have : (b * w1) ^ 2 = (w2 * m) ^ 2 := by rw [hm]
      linear_combination this - b * ht
    obtain ⟨r, hr⟩ := Int.sq_of_isCoprime hC.cbc.neg_right hm2
    have hbr : |b| = |r| ^ 2 := by
      rcases hr with hr | hr
      · rw [hr, abs_pow]
      · rw [hr, abs_neg, abs_pow]
    refine hns |r| ?_ hbr
    have := abs_nonneg r
    nlinarith
  -- size of `t`
  have htb : 3 * t ^ 2 ≤ 4 * |b * c| := by
    have ha2 : 0 < a ^ 2 := by have := hC.a0; positivity
    have h1 : |a * t| ≤ |b| * w1 ^ 2 + |c| * w2 ^ 2 := by
      rw [← ht]
      refine le_trans (abs_add_le _ _) ?_
      rw [abs_mul, abs_mul, abs_pow, abs_pow, sq_abs, sq_abs]
    have h2 : (a * t) ^ 2 ≤ (|b| * w1 ^ 2 + |c| * w2 ^ 2) ^ 2 := by
      rw [← sq_abs (a * t)]
      exact pow_le_pow_left₀ (abs_nonneg _) h1 2
    have h3 : a ^ 2 * (3 * t ^ 2) ≤ a ^ 2 * (4 * |b * c|) := by
      rw [abs_mul]
      have := h.norm
      nlinarith
    exact le_of_mul_le_mul_left h3 ha2
  have hS : 2 ≤ |b * c| := by
    rw [abs_mul]
    have := Int.one_le_abs hC.c0
    nlinarith
  have htS : |t| < |b * c| := by
    by_contra hcon
    push Not at hcon
    have e := sq_abs t
    nlinarith
  obtain ⟨⟨e1, e2⟩, ⟨p3, p1, p2⟩, c12, c13, c23⟩ := lem3_spec t (b * c) ht0 hbc0
  simp only
  generalize lem3 t (b * c) = l at *
  simp only [if_pos p3]
  by_cases t1 : gcd l.c2 b > 1
  · rw [if_pos t1]
    refine ⟨_, rfl, t1, Or.inr (Or.inl ⟨rfl, dvd_sq_of hC.cbc (dvd_snd _ _) ?_⟩)⟩
    refine (pow_dvd_pow_of_dvd (dvd_fst _ _) 2).trans ?_
    rw [e2]; exact ⟨l.m2 * l.m3, by ring⟩
  rw [if_neg t1]
  by_cases t2 : gcd l.c2 c > 1
  · rw [if_pos t2]
    refine ⟨_, rfl, t2, Or.inr (Or.inr ⟨rfl, dvd_sq_of hC.cbc.symm (dvd_snd _ _) ?_⟩)⟩
    refine (pow_dvd_pow_of_dvd (dvd_fst _ _) 2).trans ?_
    rw [mul_comm c b, e2]; exact ⟨l.m2 * l.m3, by ring⟩
  rw [if_neg t2]
  have hal : l.c2 = 1 := by
    have c1 := coprime_of_gcd_le p2.ne' t1
    have c2 := coprime_of_gcd_le p2.ne' t2
    have : l.c2 ∣ b * c := ⟨l.c2 * l.m2 * l.m3, by rw [e2]; ring⟩
    have := (c1.mul_right c2).isUnit_of_dvd' dvd_rfl this
    rw [Int.isUnit_iff] at this
    omega
  rw [hal] at e2
  have hne : l.m1 ≠ 0 := fun h0 => ht0 (by rw [e1, h0]; ring)
  have htt : t = (-l.m1) * (-l.m3) * l.c1 ^ 2 := by rw [e1]; ring
  have hpre : PreB a b c k1 k2 k3 w1 w2 (-l.m1) (-l.m2) (-l.m3) l.c1 := by
    refine ⟨hC, h.prim, h.lat, by rw [ht, htt], by linarith, c12.neg_neg, c13.neg_neg, c23.neg_neg,
      neg_ne_zero.mpr hne, p1, by linarith, ?_⟩
    -- signs
    by_contra hcon
    push Not at hcon
    have hm1 : 0 < l.m1 := by omega
    have hm2 : 0 ≤ l.m2 := by omega
    have htpos : 0 < t := by rw [e1]; positivity
    have hbcpos : 0 < b * c := by
      rcases lt_or_eq_of_le (show 0 ≤ b * c by rw [e2]; positivity) with h' | h'
      · exact h'
      · exact absurd h'.symm hbc0
    have w1n := sq_nonneg w1
    have w2n := sq_nonneg w2
    rcases lt_or_gt_of_ne hC.b0 with hb | hb
    · have hc : c < 0 := by nlinarith
      have ha : 0 < a := by
        rcases lt_or_gt_of_ne hC.a0 with h' | h'
        · exact absurd ⟨h', hb, hc⟩ hC.neg
        · exact h'
      have : 0 < a * t := mul_pos ha htpos
      nlinarith
    · have hc : 0 < c := by nlinarith
      have ha : a < 0 := by
        rcases lt_or_gt_of_ne hC.a0 with h' | h'
        · exact h'
        · exact absurd ⟨h', hb, hc⟩ hC.pos
      have : a * t < 0 := mul_neg_of_neg_of_pos ha htpos
      nlinarith
  have hdt : (-l.m1) * (-l.m3) ∣ t := by rw [htt]; exact Dvd.intro _ rfl
  have hle : |(-l.m1) * (-l.m3)| ≤ |t| := abs_le_abs_of_dvd ht0 hdt
  have hlt : |(-l.m1) * (-l.m3)| < B := by omega
  refine lem4b_spec X rec B hrec fuel hpre hlt ?_
  have h1 : (-l.m1).natAbs ≤ ((-l.m3) * (-l.m1)).natAbs := natAbs_le_mul (by omega)
  rw [mul_comm] at h1
  have h2 : (((-l.m1) * (-l.m3)).natAbs : ℤ) = |(-l.m1) * (-l.m3)| := Int.natCast_natAbs _
  omega

theorem lem4_spec (X : XGcd) (rec : ℤ → ℤ → ℤ → ℤ → ℤ → ℤ → Option Out) (B : ℕ) (hrec : RecOk rec B) (fuel : ℕ)
    {a b c k1 k2 k3 : ℤ} (h : Cert a b c k1 k2 k3) (hbc : |c| ≤ |b|) (hns : ∀ r : ℤ, 1 < r → |b| ≠ r ^ 2)
    (hB : |b * c| ≤ B) (hf : B ≤ fuel) :
    ∃ o, lem4 X rec fuel a b c k1 k2 k3 = some o ∧ OutOk a b c k1 k2 k3 o := by
  unfold lem4
  by_cases h1 : |b| = 1
  · rw [if_pos h1]
    have hc1 : |c| = 1 := by
      have := Int.one_le_abs h.c0
      omega
    obtain ⟨r, hr, s, l⟩ := lem1_spec h (Or.inl (by rw [abs_mul, h1, hc1, one_mul]))
    rw [hr]
    exact ⟨_, rfl, s, l⟩
  · rw [if_neg h1]
    have hb2 : 2 ≤ |b| := by
      have := Int.one_le_abs h.b0
      omega
    have hbp : 0 < |b| := by omega
    have hcp : 0 < |c| := abs_pos.mpr h.c0
    have hw : a ∣ (k1 * invmod X c a).fmod a - k1 * invmod X c a := by
      have := Int.fmod_add_mul_fdiv (k1 * invmod X c a) a
      exact ⟨-((k1 * invmod X c a).fdiv a), by linarith⟩
    have hi := invmod_coprime X c a h.cca
    simp only
    generalize (k1 * invmod X c a).fmod a = w at *
    have hd : (1 : ℤ) * a - w * 0 ≠ 0 := by rw [mul_zero, sub_zero, one_mul]; exact h.a0
    obtain ⟨xx, yy, hbas, hnorm, -, -, -⟩ := minv_basis 1 w 0 a |b| |c| hbp hcp hd
    generalize (minv 1 w 0 a |b| |c|).1 = w1 at *
    generalize (minv 1 w 0 a |b| |c|).2 = w2 at *
    refine lem4a_spec X rec B hrec fuel ⟨h, ?_, ?_, ?_, hbas.ne hd⟩ hb2 hns hB hf
    · intro d hd1 hd2
      have : d ∣ w1 * yy - w2 * xx := dvd_sub (hd1.mul_right _) (hd2.mul_right _)
      rcases hbas.det with e | e
      · rw [e] at this; simpa using this
      · rw [e] at this; simpa using this
    · obtain ⟨s, t, e1, e2⟩ := hbas.mem1
      have : c * w2 - k1 * w1 = a * (c * t) + c * w1 * (w - k1 * invmod X c a) + k1 * w1 * (c * invmod X c a - 1) := by
        have e1' : w1 = s := by linarith
        rw [e2, e1']; ring
      rw [this]
      exact dvd_add (dvd_add (Dvd.intro _ rfl) (hw.mul_left _)) (hi.mul_left _)
    · simpa using hnorm

/-- the product of two coefficients is less than `B` -/
def Small (a b c : ℤ) (B : ℕ) : Prop := |a * b| < B ∨ |b * c| < B ∨ |c * a| < B

theorem Small.cyc {a b c : ℤ} {B : ℕ} (h : Small a b c B) : Small b c a B := by
  rcases h with h | h | h
  · exact Or.inr (Or.inr h)
  · exact Or.inl h
  · exact Or.inr (Or.inl h)

theorem Small.flip {a b c : ℤ} {B : ℕ} (h : Small a b c B) : Small a c b B := by
  rcases h with h | h | h
  · exact Or.inr (Or.inr (by rw [mul_comm]; exact h))
  · exact Or.inr (Or.inl (by rw [mul_comm]; exact h))
  · exact Or.inl (by rw [mul_comm]; exact h)

theorem Small.le {a b c : ℤ} {k : ℕ} (h : Small a b c (k + 1)) (h1 : |b| ≤ |a|) (h2 : |c| ≤ |b|) : |b * c| ≤ k := by
  unfold Small at h
  rw [abs_mul, abs_mul, abs_mul] at h
  rw [abs_mul]
  push_cast at h
  have := abs_nonneg a
  have := abs_nonneg b
  have := abs_nonneg c
  rcases h with h3 | h3 | h3
  · have : |b| * |c| ≤ |a| * |b| := by nlinarith
    omega
  · omega
  · have : |b| * |c| ≤ |c| * |a| := by nlinarith
    omega

theorem OutOk.rot1 {a b c n p q : ℤ} {o : Out} (h : OutOk c a b q n p o) :
    OutOk a b c n p q (permOut (fun z x y => (x, y, z)) [0, 3, 1, 2] o) := by
  cases o with
  | sol z x y => exact ⟨h.1.cyc.cyc, h.2.cyc.cyc⟩
  | bad => exact h
  | sq i u =>
    obtain ⟨h1, h2⟩ := h
    refine ⟨h1, ?_⟩
    rcases h2 with ⟨rfl, h3⟩ | ⟨rfl, h3⟩ | ⟨rfl, h3⟩
    · exact Or.inr (Or.inr ⟨rfl, h3⟩)
    · exact Or.inl ⟨rfl, h3⟩
    · exact Or.inr (Or.inl ⟨rfl, h3⟩)

theorem OutOk.rot0 {a b c n p q : ℤ} {o : Out} (h : OutOk a b c n p q o) :
    OutOk a b c n p q (permOut (fun x y z => (x, y, z)) [0, 1, 2, 3] o) := by
  cases o with
  | sol z x y => exact h
  | bad => exact h
  | sq i u =>
    obtain ⟨h1, h2⟩ := h
    refine ⟨h1, ?_⟩
    rcases h2 with ⟨rfl, h3⟩ | ⟨rfl, h3⟩ | ⟨rfl, h3⟩
    · exact Or.inl ⟨rfl, h3⟩
    · exact Or.inr (Or.inl ⟨rfl, h3⟩)
    · exact Or.inr (Or.inr ⟨rfl, h3⟩)

theorem OutOk.rot2 {a b c n p q : ℤ} {o : Out} (h : OutOk b c a p q n o) :
    OutOk a b c n p q (permOut (fun y z x => (x, y, z)) [0, 2, 3, 1] o) := by
  cases o with
  | sol z x y => exact ⟨h.1.cyc, h.2.cyc⟩
  | bad => exact h
  | sq i u =>
    obtain ⟨h1, h2⟩ := h
    refine ⟨h1, ?_⟩
    rcases h2 with ⟨rfl, h3⟩ | ⟨rfl, h3⟩ | ⟨rfl, h3⟩
    · exact Or.inr (Or.inl ⟨rfl, h3⟩)
    · exact Or.inr (Or.inr ⟨rfl, h3⟩)
    · exact Or.inl ⟨rfl, h3⟩

theorem OutOk.swap {a b c n p q : ℤ} {o : Out} (hc : Cert a b c n p q) (h : OutOk a c b (-n) (-q) (-p) o) :
    OutOk a b c n p q (permOut (fun x z y => (x, y, z)) [0, 1, 3, 2] o) := by
  cases o with
  | sol x z y => exact ⟨h.1.flip, h.2.flip hc⟩
  | bad => exact h
  | sq i u =>
    obtain ⟨h1, h2⟩ := h
    refine ⟨h1, ?_⟩
    rcases h2 with ⟨rfl, h3⟩ | ⟨rfl, h3⟩ | ⟨rfl, h3⟩
    · exact Or.inl ⟨rfl, h3⟩
    · exact Or.inr (Or.inr ⟨rfl, h3⟩)
    · exact Or.inr (Or.inl ⟨rfl, h3⟩)

theorem OutOk.swap1 {a b c n p q : ℤ} {o : Out} (hc : Cert a b c n p q) (h : OutOk b a c (-p) (-n) (-q) o) :
    OutOk a b c n p q (permOut (fun y x z => (x, y, z)) [0, 2, 1, 3] o) := by
  cases o with
  | sol y x z => exact ⟨h.1.flip.cyc, (h.2.flip hc.cyc).cyc⟩
  | bad => exact h
  | sq i u =>
    obtain ⟨h1, h2⟩ := h
    refine ⟨h1, ?_⟩
    rcases h2 with ⟨rfl, h3⟩ | ⟨rfl, h3⟩ | ⟨rfl, h3⟩
    · exact Or.inr (Or.inl ⟨rfl, h3⟩)
    · exact Or.inl ⟨rfl, h3⟩
    · exact Or.inr (Or.inr ⟨rfl, h3⟩)

theorem OutOk.swap2 {a b c n p q : ℤ} {o : Out} (hc : Cert a b c n p q) (h : OutOk c b a (-q) (-p) (-n) o) :
    OutOk a b c n p q (permOut (fun z y x => (x, y, z)) [0, 3, 2, 1] o) := by
  cases o with
  | sol z y x => exact ⟨h.1.flip.cyc.cyc, (h.2.flip hc.cyc.cyc).cyc.cyc⟩
  | bad => exact h
  | sq i u =>
    obtain ⟨h1, h2⟩ := h
    refine ⟨h1, ?_⟩
    rcases h2 with ⟨rfl, h3⟩ | ⟨rfl, h3⟩ | ⟨rfl, h3⟩
    · exact Or.inr (Or.inr ⟨rfl, h3⟩)
    · exact Or.inr (Or.inl ⟨rfl, h3⟩)
    · exact Or.inl ⟨rfl, h3⟩

theorem root_sq {x : ℤ} (hx : (isqrt |x|).1 = true ∧ (isqrt |x|).2 > 1) :
    (1 : ℤ) < ((isqrt |x|).2 : ℤ) ∧ ((isqrt |x|).2 : ℤ) ^ 2 ∣ x := by
  refine ⟨by exact_mod_cast hx.2, ?_⟩
  have := Marith.isqrt_sound |x| hx.1
  rw [sq, ← this]
  exact abs_dvd_self x

theorem root_nsq {x : ℤ} (hx : ¬ ((isqrt |x|).1 = true ∧ (isqrt |x|).2 > 1)) : ∀ r : ℤ, 1 < r → |x| ≠ r ^ 2 := by
  intro r hr hxr
  apply hx
  obtain ⟨m, rfl⟩ : ∃ m : ℕ, r = m := ⟨r.toNat, by omega⟩
  rw [hxr, Marith.Props.C12_isqrt_root]
  exact ⟨rfl, by exact_mod_cast hr⟩

/-- `legendre_solve_cert_1` : for every certificate, with fuel more than the product of two coefficients -/
theorem solveCert_spec (X : XGcd) : ∀ (k : ℕ) (a b c n p q : ℤ), Cert a b c n p q → Small a b c k →
    ∃ o, solveCert X k a b c n p q = some o ∧ OutOk a b c n p q o := by
  intro k
  induction k with
  | zero =>
    intro a b c n p q _ hs
    exfalso
    have h1 := abs_nonneg (a * b)
    have h2 := abs_nonneg (b * c)
    have h3 := abs_nonneg (c * a)
    unfold Small at hs
    push_cast at hs
    omega
  | succ k ih =>
    intro a b c n p q h hs
    have hrec : RecOk (solveCert X k) k := by
      intro a b c n p q hC hlt
      exact ih a b c n p q hC (Or.inr (Or.inr (by rw [mul_comm]; exact hlt)))
    unfold solveCert
    simp only
    by_cases t1 : (isqrt |b|).1 = true ∧ (isqrt |b|).2 > 1
    · rw [if_pos t1]
      exact ⟨_, rfl, (root_sq t1).1, Or.inr (Or.inl ⟨rfl, (root_sq t1).2⟩)⟩
    rw [if_neg t1]
    by_cases t2 : (isqrt |c|).1 = true ∧ (isqrt |c|).2 > 1
    · rw [if_pos t2]
      exact ⟨_, rfl, (root_sq t2).1, Or.inr (Or.inr ⟨rfl, (root_sq t2).2⟩)⟩
    rw [if_neg t2]
    by_cases t3 : (isqrt |a|).1 = true ∧ (isqrt |a|).2 > 1
    · rw [if_pos t3]
      exact ⟨_, rfl, (root_sq t3).1, Or.inl ⟨rfl, (root_sq t3).2⟩⟩
    rw [if_neg t3]
    have nb := root_nsq t1
    have nc := root_nsq t2
    have na := root_nsq t3
    by_cases u1 : |a| > |b|
    · rw [if_pos u1]
      by_cases u2 : |c| > |a|
      · rw [if_pos u2]
        obtain ⟨o, ho, hok⟩ := lem4_spec X (solveCert X k) k hrec k h.cyc.cyc u1.le na
          (hs.cyc.cyc.le u2.le u1.le) le_rfl
        rw [ho]
        exact ⟨_, rfl, hok.rot1⟩
      · rw [if_neg u2]
        by_cases u3 : |b| > |c|
        · rw [if_pos u3]
          obtain ⟨o, ho, hok⟩ := lem4_spec X (solveCert X k) k hrec k h u3.le nb
            (hs.le u1.le u3.le) le_rfl
          rw [ho]
          exact ⟨_, rfl, hok.rot0⟩
        · rw [if_neg u3]
          obtain ⟨o, ho, hok⟩ := lem4_spec X (solveCert X k) k hrec k h.flip (not_lt.mp u3) nc
            (hs.flip.le (not_lt.mp u2) (not_lt.mp u3)) le_rfl
          rw [ho]
          exact ⟨_, rfl, hok.swap h⟩
    · rw [if_neg u1]
      by_cases u2 : |a| > |c|
      · rw [if_pos u2]
        obtain ⟨o, ho, hok⟩ := lem4_spec X (solveCert X k) k hrec k h.cyc.flip u2.le na
          (hs.cyc.flip.le (not_lt.mp u1) u2.le) le_rfl
        rw [ho]
        exact ⟨_, rfl, hok.swap1 h⟩
      · rw [if_neg u2]
        by_cases u3 : |c| > |b|
        · rw [if_pos u3]
          obtain ⟨o, ho, hok⟩ := lem4_spec X (solveCert X k) k hrec k h.cyc.cyc.flip (not_lt.mp u1) nb
            (hs.cyc.cyc.flip.le u3.le (not_lt.mp u1)) le_rfl
          rw [ho]
          exact ⟨_, rfl, hok.swap2 h⟩
        · rw [if_neg u3]
          obtain ⟨o, ho, hok⟩ := lem4_spec X (solveCert X k) k hrec k h.cyc (not_lt.mp u2) nc
            (hs.cyc.le (not_lt.mp u3) (not_lt.mp u2)) le_rfl
          rw [ho]
          exact ⟨_, rfl, hok.rot2⟩

end Eclib.Legendre
