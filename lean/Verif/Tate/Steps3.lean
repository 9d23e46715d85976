import Verif.Tate.Steps2

/-!
# The types `I*m`
-/

namespace Eclib.Tate

open WeierstrassCurve
open Eclib.Marith (XGcd SqrRootMod val div mod invmod legendre sqrtModP)
open Eclib.Curve (Cd fdiv_eq div_iff')

/-- `p^(m+6)` divides the discriminant of an equation of type `I*m` or beyond -/
theorem StarLev.disc {p : ℤ} {W : WeierstrassCurve ℤ} {m : ℕ} (hm : 1 ≤ m) (h : StarLev p W m) :
    p ^ (m + 6) ∣ W.Δ := by
  have := Val.of1 h.a1
  have := Val.of1 h.a2
  have : Val p W.a₃ ((m + 4) / 2) := ⟨h.a3⟩
  have : Val p W.a₄ ((m + 5) / 2) := ⟨h.a4⟩
  have : Val p W.a₆ (m + 3) := ⟨h.a6⟩
  unfold Δ b₂ b₄ b₆ b₈
  pv

/-- the change of `y` that makes a double root of `Y^2+a3t Y-a6t` zero -/
theorem tau_spec {p : ℕ} (hp : p.Prime) {a3t a6t τ : ℤ}
    (hd : (p : ℤ) ∣ a3t * a3t + 4 * a6t)
    (hτ : (p = 2 → (p : ℤ) ∣ τ - a6t) ∧ (p ≠ 2 → (p : ℤ) ∣ 2 * τ + a3t)) :
    (p : ℤ) ∣ a3t + 2 * τ ∧ (p : ℤ) ∣ a6t - τ * a3t - τ ^ 2 := by
  have hp' : Prime (p : ℤ) := Nat.prime_iff_prime_int.1 hp
  by_cases h2 : p = 2
  · have h := hτ.1 h2
    subst h2
    simp only [Nat.cast_ofNat] at *
    have h3 : (2 : ℤ) ∣ a3t := by
      have : (2 : ℤ) ∣ a3t ^ 2 := by
        rw [show a3t ^ 2 = (a3t * a3t + 4 * a6t) - 2 * (2 * a6t) by ring]
        exact dvd_sub hd (dvd_mul_right _ _)
      exact hp'.dvd_of_dvd_pow this
    refine ⟨dvd_add h3 (dvd_mul_right _ _), ?_⟩
    rw [show a6t - τ * a3t - τ ^ 2 = -(τ - a6t) - (τ ^ 2 - τ) - τ * a3t by ring]
    exact dvd_sub (dvd_sub (dvd_neg.2 h) (two_dvd_sq_sub τ)) (h3.mul_left _)
  · have h := hτ.2 h2
    refine ⟨by rwa [add_comm], ?_⟩
    apply odd_cancel1 hp h2 2
    rw [show 2 ^ 2 * (a6t - τ * a3t - τ ^ 2) = (a3t * a3t + 4 * a6t) - (2 * τ + a3t) * (2 * τ + a3t) by ring]
    exact dvd_sub hd (h.mul_left _)

/-- the value of `τ` computed by the code -/
theorem tau_code (L : Lib) {p : ℕ} (hp : p.Prime) (a3t a6t : ℤ) :
    (p = 2 → (p : ℤ) ∣ root L a6t 2 p - a6t) ∧
    (p ≠ 2 → (p : ℤ) ∣ 2 * mod (-a3t * halfmodp p) p + a3t) := by
  constructor
  · rintro rfl
    exact two_dvd_sub (root2_cast L a6t)
  · intro h2
    rw [dvd_iff_cast]
    push_cast
    rw [smod_cast hp.ne_zero]
    have hh := congrArg (fun z : ℤ => (z : ZMod p)) (two_half (prime_odd hp h2))
    push_cast at hh ⊢
    simp only [CharP.cast_eq_zero, zero_add] at hh
    linear_combination (-(a3t : ZMod p)) * hh

/-- the change of `x` that makes a double root of `a2t X^2+a4t X+a6t` zero -/
theorem rho_spec {p : ℕ} (hp : p.Prime) {a2t a4t a6t ρ : ℤ} (h2t : ¬ (p : ℤ) ∣ a2t)
    (hd : (p : ℤ) ∣ a4t * a4t - 4 * a6t * a2t)
    (hρ : (p = 2 → (p : ℤ) ∣ a2t * ρ - a6t) ∧ (p ≠ 2 → (p : ℤ) ∣ 2 * a2t * ρ + a4t)) :
    (p : ℤ) ∣ a4t + 2 * ρ * a2t ∧ (p : ℤ) ∣ a6t + ρ * a4t + ρ ^ 2 * a2t := by
  have hp' : Prime (p : ℤ) := Nat.prime_iff_prime_int.1 hp
  by_cases h2 : p = 2
  · have h := hρ.1 h2
    subst h2
    simp only [Nat.cast_ofNat] at *
    have h3 : (2 : ℤ) ∣ a4t := by
      have : (2 : ℤ) ∣ a4t ^ 2 := by
        rw [show a4t ^ 2 = (a4t * a4t - 4 * a6t * a2t) + 2 * (2 * a6t * a2t) by ring]
        exact dvd_add hd (dvd_mul_right _ _)
      exact hp'.dvd_of_dvd_pow this
    refine ⟨dvd_add h3 ⟨ρ * a2t, by ring⟩, ?_⟩
    rw [show a6t + ρ * a4t + ρ ^ 2 * a2t = a2t * (ρ ^ 2 - ρ) + (a2t * ρ - a6t) + 2 * a6t + ρ * a4t by ring]
    exact dvd_add (dvd_add (dvd_add ((two_dvd_sq_sub ρ).mul_left _) h) (dvd_mul_right _ _)) (h3.mul_left _)
  · have h := hρ.2 h2
    refine ⟨by rw [show a4t + 2 * ρ * a2t = 2 * a2t * ρ + a4t by ring]; exact h, ?_⟩
    have h4 : (p : ℤ) ∣ 2 ^ 2 * (a2t * (a6t + ρ * a4t + ρ ^ 2 * a2t)) := by
      rw [show 2 ^ 2 * (a2t * (a6t + ρ * a4t + ρ ^ 2 * a2t)) =
        (2 * a2t * ρ + a4t) * (2 * a2t * ρ + a4t) - (a4t * a4t - 4 * a6t * a2t) by ring]
      exact dvd_sub (h.mul_left _) hd
    exact (hp'.dvd_or_dvd (odd_cancel1 hp h2 2 h4)).resolve_left h2t

theorem rho_code (L : Lib) {p : ℕ} (hp : p.Prime) {a2t : ℤ} (a4t a6t : ℤ) (h2t : ¬ (p : ℤ) ∣ a2t) :
    (p = 2 → (p : ℤ) ∣ a2t * root L (a6t * invmod L.xg a2t p) 2 p - a6t) ∧
    (p ≠ 2 → (p : ℤ) ∣ 2 * a2t * mod (-a4t * invmod L.xg (2 * a2t) p) p + a4t) := by
  have hF := Fact.mk hp
  have h0 : ((a2t : ℤ) : ZMod p) ≠ 0 := fun h => h2t ((dvd_iff_cast p _).2 h)
  constructor
  · rintro rfl
    apply two_dvd_sub
    push_cast
    have e := root2_cast L (a6t * invmod L.xg a2t 2)
    have hi := invmod_cast L.xg h0
    push_cast at hi e
    rw [e, hi]
    field_simp
  · intro h2
    have n2 := two_ne hp h2
    rw [dvd_iff_cast]
    push_cast
    rw [smod_cast hp.ne_zero]
    have hi := invmod_cast L.xg (a := 2 * a2t) (p := p) (by push_cast; exact mul_ne_zero n2 h0)
    push_cast at hi ⊢
    rw [hi]
    field_simp
    ring

/-! ### from a double root to `I*1` -/

/-- the move of a root `ρ` of the cubic to the origin -/
theorem cubic_move {p : ℕ} {W V : WeierstrassCurve ℤ} {b c d r ρ : ℤ} (h5 : Lev5 p W)
    (hb : W.a₂ = p * b) (hc : W.a₄ = p ^ 2 * c) (hd : W.a₆ = p ^ 3 * d) (hr : r = p * ρ)
    (hV : Chg W V r 0 0) : (p : ℤ) ∣ V.a₁ ∧ (p : ℤ) ^ 2 ∣ V.a₃ ∧ V.a₂ = p * (b + 3 * ρ) ∧
    V.a₄ = p ^ 2 * (c + 2 * ρ * b + 3 * ρ ^ 2) ∧ V.a₆ = p ^ 3 * (ρ ^ 3 + b * ρ ^ 2 + c * ρ + d) := by
  have := Val.of1 h5.a1
  have : Val (p : ℤ) W.a₃ 2 := ⟨h5.a3⟩
  have : Val (p : ℤ) r 1 := ⟨by rw [hr]; simp⟩
  refine ⟨?_, ?_, ?_, ?_, ?_⟩
  · rw [show V.a₁ = W.a₁ by rw [hV.a1]; ring]; pv
  · rw [show V.a₃ = W.a₃ + r * W.a₁ by rw [hV.a3]; ring]; pv
  · rw [hV.a2, hb, hr]; ring
  · rw [hV.a4, hb, hc, hr]; ring
  · rw [hV.a6, hb, hc, hd, hr]; ring

theorem double_spec (L : Lib) {p : ℕ} (hp : p.Prime) {b c d : ℤ} {W V : WeierstrassCurve ℤ} {r ρ : ℤ}
    (h5 : Lev5 p W)
    (hb : W.a₂ = p * b) (hc : W.a₄ = p ^ 2 * c) (hd : W.a₆ = p ^ 3 * d) (hr : r = p * mod ρ p)
    (hw : (p : ℤ) ∣ cw b c d) (hx : ¬ (p : ℤ) ∣ 3 * c - b * b)
    (hρ : ρ = if (p : ℤ) % 2 = 0 then root L c 2 p else if (p : ℤ) = 3 then c * invmod L.xg b p
        else (b * c - 9 * d) * invmod L.xg (2 * (3 * c - b * b)) p)
    (hV : Chg W V r 0 0) : StarLev p V 1 := by
  have hF := Fact.mk hp
  obtain ⟨q1, q3, q2, q4, q6⟩ := cubic_move h5 hb hc hd hr hV
  have cρ := smod_cast hp.ne_zero ρ
  rw [dvd_iff_cast] at hw hx
  have hw' : cw (b : ZMod p) c d = 0 := by
    have : ((cw b c d : ℤ) : ZMod p) = cw (b : ZMod p) c d := by unfold cw; push_cast; ring
    rw [← this]; exact hw
  push_cast at hx
  have key : (ρ : ZMod p) ^ 3 + b * ρ ^ 2 + c * ρ + d = 0 ∧ (c : ZMod p) + 2 * ρ * b + 3 * ρ ^ 2 = 0 := by
    by_cases h2 : p = 2
    · subst h2
      rw [if_pos (by rfl)] at hρ
      have e : (ρ : ZMod 2) = c := by rw [hρ]; exact root2_cast L c
      rw [e]
      exact cubic_double_two _ _ _ hw' hx
    · rw [if_neg (fun h => h2 ((prime_even hp).1 h))] at hρ
      by_cases h3 : p = 3
      · subst h3
        rw [if_pos (by rfl)] at hρ
        obtain ⟨hb0, k1, k2⟩ := cubic_double_three _ _ _ hw' hx
        have e : (ρ : ZMod 3) = c * (b : ZMod 3)⁻¹ := by
          have := invmod_cast L.xg hb0
          rw [hρ]; push_cast at this ⊢; rw [this]
        rw [e]
        exact ⟨k1, k2⟩
      · rw [if_neg (by exact_mod_cast h3)] at hρ
        have n2 := two_ne hp h2
        refine cubic_double n2 hw' hx ?_
        have hi := invmod_cast L.xg (a := 2 * (3 * c - b * b)) (p := p)
          (by push_cast; exact mul_ne_zero n2 hx)
        rw [hρ]
        push_cast at hi ⊢
        rw [hi, mul_comm _ (2 * (3 * (c : ZMod p) - b * b))⁻¹, mul_inv_cancel_left₀ (mul_ne_zero n2 hx)]
  have hs := cubic_simple hx key.2
  refine ⟨q1, ⟨_, q2⟩, ?_, q3, ?_, ?_⟩
  · rw [q2, pow_two]
    intro h
    have h' := (mul_dvd_mul_iff_left (show (p : ℤ) ≠ 0 by exact_mod_cast hp.ne_zero)).1 h
    rw [dvd_iff_cast] at h'
    push_cast at h'
    rw [cρ] at h'
    exact hs h'
  · show (p : ℤ) ^ 3 ∣ V.a₄
    rw [q4, pow_succ]
    refine mul_dvd_mul_left _ ((dvd_iff_cast p _).2 ?_)
    push_cast; rw [cρ]; exact key.2
  · show (p : ℤ) ^ 4 ∣ V.a₆
    rw [q6, pow_succ]
    refine mul_dvd_mul_left _ ((dvd_iff_cast p _).2 ?_)
    push_cast; rw [cρ]; exact key.1

/-! ### the loop -/

/-- what the algorithm finds: the working copy `C` holds an equation `V`, arising from `W` by a change of
coordinates, in normal form for the type recorded -/
def Found (p : ℕ) (W : WeierstrassCurve ℤ) (od oj : ℤ) (res : Cd × Option Red) : Prop :=
  ∃ V, Sim W V ∧ Is res.1 V ∧
    ((∃ red k c, res.2 = some red ∧ NF p V k c ∧ red.ordDisc = od ∧ red.ordN = od - k.components + 1 ∧
      red.ordJ = oj ∧ red.code = k.code ∧ red.cp = c) ∨ (res.2 = none ∧ NM p V))

/-- the same for the star loop -/
def FoundStar (p : ℕ) (W : WeierstrassCurve ℤ) (q : Cd × ℤ × ℤ × ℤ) : Prop :=
  ∃ V m, ∃ c : ℕ, Sim W V ∧ Is q.1 V ∧ NF p V (.Istar m) c ∧ q.2.1 + q.2.2.1 = m + 5 ∧ q.2.2.2 = c

theorem FoundStar.sim {p : ℕ} {W V : WeierstrassCurve ℤ} {q : Cd × ℤ × ℤ × ℤ} (h : Sim W V)
    (hq : FoundStar p V q) : FoundStar p W q := by
  obtain ⟨U, m, c, h1, h2⟩ := hq
  exact ⟨U, m, c, h.trans h1, h2⟩

theorem pow_mul_dvd {p x : ℤ} (hp : p ≠ 0) (n : ℕ) : p ^ (n + 1) ∣ p ^ n * x ↔ p ∣ x := by
  rw [pow_succ]
  exact mul_dvd_mul_iff_left (pow_ne_zero n hp)

theorem split_ite {P : Prop} {e : Bool} (h : e = true ↔ P) (a b : ℕ) : Split P (if e then a else b) a b := by
  unfold Split
  cases e
  · exact Or.inr ⟨fun hP => by simpa using h.2 hP, rfl⟩
  · exact Or.inl ⟨h.1 rfl, rfl⟩

theorem starLoop_spec (L : Lib) {p : ℕ} (hp : p.Prime) {D : ℤ} (hD : D ≠ 0) :
    ∀ (fuel k : ℕ) (C : Cd) (W : WeierstrassCurve ℤ), Is C W → W.Δ = D → 1 ≤ k →
      StarLev p W (2 * k - 1) → ¬ (p : ℤ) ^ (fuel + 2 * k + 5) ∣ D →
      ∃ q, starLoop L p fuel C (k + 2) (k + 2) ((p : ℤ) ^ (k + 1)) ((p : ℤ) ^ (k + 1)) = some q ∧ FoundStar p W q
  | 0, k, C, W, hC, hW, hk, hS, hf => by
    exfalso
    have := hS.disc (by omega)
    rw [hW] at this
    exact hf ((pow_dvd_pow _ (by omega)).trans this)
  | fuel + 1, k, C, W, hC, hW, hk, hS, hf => by
    have hp' : Prime (p : ℤ) := Nat.prime_iff_prime_int.1 hp
    have hp0 : (p : ℤ) ≠ 0 := hp'.ne_zero
    have hpk : ∀ n, (p : ℤ) ^ n ≠ 0 := fun n => pow_ne_zero n hp0
    obtain ⟨m, rfl⟩ : ∃ m, k = m + 1 := ⟨k - 1, by omega⟩
    have hS3 : (p : ℤ) ^ (m + 2) ∣ W.a₃ := (pow_dvd_pow _ (by omega)).trans hS.a3
    have hS4 : (p : ℤ) ^ (m + 3) ∣ W.a₄ := (pow_dvd_pow _ (by omega)).trans hS.a4
    have hS6 : (p : ℤ) ^ (2 * m + 4) ∣ W.a₆ := (pow_dvd_pow _ (by omega)).trans hS.a6
    obtain ⟨a3t, e3⟩ := hS3
    obtain ⟨a6t, e6⟩ := hS6
    have f3 : C.a3.fdiv ((p : ℤ) ^ (m + 1 + 1)) = a3t := by rw [hC.a3]; exact fdiv_eq (hpk _) e3
    have f6 : (C.a6.fdiv ((p : ℤ) ^ (m + 1 + 1))).fdiv ((p : ℤ) ^ (m + 1 + 1)) = a6t := by
      rw [hC.a6, fdiv_eq (hpk _) (show W.a₆ = (p : ℤ) ^ (m + 1 + 1) * ((p : ℤ) ^ (m + 1 + 1) * a6t) by rw [e6]; ring)]
      exact fdiv_eq (hpk _) rfl
    have d1 : (p : ℤ) ^ (2 * m + 5) ∣ W.a₃ ^ 2 + 4 * W.a₆ ↔ (p : ℤ) ∣ a3t * a3t + 4 * a6t := by
      rw [e3, e6, show ((p : ℤ) ^ (m + 2) * a3t) ^ 2 + 4 * (p ^ (2 * m + 4) * a6t) =
        p ^ (2 * m + 4) * (a3t * a3t + 4 * a6t) by ring]
      exact pow_mul_dvd hp0 _
    rw [starLoop]
    simp only [f3, f6]
    by_cases hdiv : div (p : ℤ) (a3t * a3t + 4 * a6t) = true
    · rw [if_pos hdiv]
      rw [div_iff' hp0] at hdiv
      -- the change of y
      have ht : ∃ τ, (if (p : ℤ) % 2 = 0 then (p : ℤ) ^ (m + 1 + 1) * root L a6t 2 p
          else (p : ℤ) ^ (m + 1 + 1) * mod (-a3t * halfmodp p) p) = (p : ℤ) ^ (m + 2) * τ ∧
          (p : ℤ) ∣ a3t + 2 * τ ∧ (p : ℤ) ∣ a6t - τ * a3t - τ ^ 2 := by
        have hc := tau_code L hp a3t a6t
        by_cases h2 : p = 2
        · refine ⟨_, if_pos ((prime_even hp).2 h2), tau_spec hp hdiv ⟨hc.1, fun h => (h h2).elim⟩⟩
        · refine ⟨_, if_neg (fun h => h2 ((prime_even hp).1 h)), tau_spec hp hdiv ⟨fun h => (h2 h).elim, hc.2⟩⟩
      obtain ⟨τ, et, t1, t2⟩ := ht
      rw [et]
      obtain ⟨V, hV, hCV⟩ := hC.transform 0 0 ((p : ℤ) ^ (m + 2) * τ)
      generalize C.transform 0 0 ((p : ℤ) ^ (m + 2) * τ) = C1 at hCV ⊢
      have v1 := Val.of1 hS.a1
      have v4 : Val (p : ℤ) W.a₄ (m + 3) := ⟨hS4⟩
      have hVS : StarLev p V (2 * m + 2) := by
        refine ⟨by rw [show V.a₁ = W.a₁ by rw [hV.a1]; ring]; pv, ?_, ?_, ?_, ?_, ?_⟩
        · rw [show V.a₂ = W.a₂ by rw [hV.a2]; ring]; exact hS.a2
        · rw [show V.a₂ = W.a₂ by rw [hV.a2]; ring]; exact hS.a2'
        · rw [show V.a₃ = p ^ (m + 2) * (a3t + 2 * τ) by rw [hV.a3, e3]; ring,
            show (2 * m + 2 + 4) / 2 = m + 2 + 1 by omega, pow_succ]
          exact mul_dvd_mul_left _ t1
        · rw [show V.a₄ = W.a₄ - (p : ℤ) ^ (m + 2) * τ * W.a₁ by rw [hV.a4]; ring]; pv
        · rw [show V.a₆ = p ^ (2 * m + 4) * (a6t - τ * a3t - τ ^ 2) by rw [hV.a6, e3, e6]; ring,
            show 2 * m + 2 + 3 = 2 * m + 4 + 1 by omega, pow_succ]
          exact mul_dvd_mul_left _ t2
      have hsim : Sim W V := sim_iff.2 ⟨_, _, _, hV⟩
      have hWV : V.Δ = D := by rw [hV.disc, hW]
      obtain ⟨a2t, e2'⟩ := hVS.a2
      have hS4' : (p : ℤ) ^ (m + 3) ∣ V.a₄ := (pow_dvd_pow _ (by omega)).trans hVS.a4
      obtain ⟨a4t, e4'⟩ := hS4'
      have hS6' : (p : ℤ) ^ (2 * m + 5) ∣ V.a₆ := (pow_dvd_pow _ (by omega)).trans hVS.a6
      obtain ⟨a6s, e6'⟩ := hS6'
      have h2t : ¬ (p : ℤ) ∣ a2t := by
        rintro ⟨z, rfl⟩
        exact hVS.a2' ⟨z, by rw [e2']; ring⟩
      have g2 : C1.a2.fdiv p = a2t := by rw [hCV.a2]; exact fdiv_eq hp0 e2'
      have g4 : (C1.a4.fdiv p).fdiv ((p : ℤ) ^ (m + 1 + 1)) = a4t := by
        rw [hCV.a4, fdiv_eq hp0 (show V.a₄ = p * ((p : ℤ) ^ (m + 1 + 1) * a4t) by rw [e4']; ring)]
        exact fdiv_eq (hpk _) rfl
      have g6 : (C1.a6.fdiv ((p : ℤ) ^ (m + 1 + 1))).fdiv ((p : ℤ) ^ (m + 1 + 1) * p) = a6s := by
        rw [hCV.a6, fdiv_eq (hpk _) (show V.a₆ = (p : ℤ) ^ (m + 1 + 1) * ((p : ℤ) ^ (m + 1 + 1) * p * a6s) by
          rw [e6']; ring)]
        exact fdiv_eq (mul_ne_zero (hpk _) hp0) rfl
      simp only [g2, g4, g6]
      have d2 : (p : ℤ) ^ (2 * m + 7) ∣ V.a₄ ^ 2 - 4 * V.a₂ * V.a₆ ↔ (p : ℤ) ∣ a4t * a4t - 4 * a6s * a2t := by
        rw [e2', e4', e6', show ((p : ℤ) ^ (m + 3) * a4t) ^ 2 - 4 * (p * a2t) * (p ^ (2 * m + 5) * a6s) =
          p ^ (2 * m + 6) * (a4t * a4t - 4 * a6s * a2t) by ring]
        exact pow_mul_dvd hp0 _
      by_cases hdiv2 : div (p : ℤ) (a4t * a4t - 4 * a6s * a2t) = true
      · rw [if_pos hdiv2]
        rw [div_iff' hp0] at hdiv2
        have hr : ∃ ρ, (if (p : ℤ) % 2 = 0 then (p : ℤ) ^ (m + 1 + 1) * root L (a6s * invmod L.xg a2t p) 2 p
            else (p : ℤ) ^ (m + 1 + 1) * mod (-a4t * invmod L.xg (2 * a2t) p) p) = (p : ℤ) ^ (m + 2) * ρ ∧
            (p : ℤ) ∣ a4t + 2 * ρ * a2t ∧ (p : ℤ) ∣ a6s + ρ * a4t + ρ ^ 2 * a2t := by
          have hc := rho_code L hp a4t a6s h2t
          by_cases h2 : p = 2
          · exact ⟨_, if_pos ((prime_even hp).2 h2), rho_spec hp h2t hdiv2 ⟨hc.1, fun h => (h h2).elim⟩⟩
          · exact ⟨_, if_neg (fun h => h2 ((prime_even hp).1 h)), rho_spec hp h2t hdiv2 ⟨fun h => (h2 h).elim, hc.2⟩⟩
        obtain ⟨ρ, er, r1, r2⟩ := hr
        rw [er]
        obtain ⟨U, hU, hCU⟩ := hCV.transform ((p : ℤ) ^ (m + 2) * ρ) 0 0
        generalize C1.transform ((p : ℤ) ^ (m + 2) * ρ) 0 0 = C2 at hCU ⊢
        have w1 := Val.of1 hVS.a1
        have w3 : Val (p : ℤ) V.a₃ (m + 3) := ⟨(pow_dvd_pow _ (by omega)).trans hVS.a3⟩
        have hUS : StarLev p U (2 * (m + 2) - 1) := by
          have e2 : U.a₂ = V.a₂ + 3 * ((p : ℤ) ^ (m + 2) * ρ) := by rw [hU.a2]; ring
          refine ⟨by rw [show U.a₁ = V.a₁ by rw [hU.a1]; ring]; pv, ?_, ?_, ?_, ?_, ?_⟩
          · have w2 := Val.of1 hVS.a2
            rw [e2]; pv
          · rw [e2]
            intro h
            refine hVS.a2' ?_
            have : (p : ℤ) ^ 2 ∣ 3 * ((p : ℤ) ^ (m + 2) * ρ) := by pv
            exact (dvd_add_left this).1 h
          · rw [show U.a₃ = V.a₃ + (p : ℤ) ^ (m + 2) * ρ * V.a₁ by rw [hU.a3]; ring]; pv
          · rw [show U.a₄ = p ^ (m + 3) * (a4t + 2 * ρ * a2t) + 3 * ((p : ℤ) ^ (m + 2) * ρ) ^ 2 by
              rw [hU.a4, e4', e2']; ring]
            have : Val (p : ℤ) (a4t + 2 * ρ * a2t) 1 := Val.of1 r1
            pv
          · rw [show U.a₆ = p ^ (2 * m + 5) * (a6s + ρ * a4t + ρ ^ 2 * a2t) + ((p : ℤ) ^ (m + 2) * ρ) ^ 3 by
              rw [hU.a6, e6', e4', e2']; ring]
            have : Val (p : ℤ) (a6s + ρ * a4t + ρ ^ 2 * a2t) 1 := Val.of1 r2
            pv
        obtain ⟨q, hq, hf'⟩ := starLoop_spec L hp hD fuel (m + 2) C2 U hCU (by rw [hU.disc, hWV]) (by omega) hUS
          (fun h => hf ((pow_dvd_pow _ (by omega)).trans h))
        refine ⟨q, ?_, hf'.sim (hsim.trans (sim_iff.2 ⟨_, _, _, hU⟩))⟩
        rw [← hq]
        congr 1
      · rw [if_neg hdiv2]
        rw [div_iff' hp0] at hdiv2
        obtain ⟨e, he, hes⟩ := rootsexist_spec hp a2t a4t a6s
        rw [he]
        refine ⟨_, rfl, V, 2 * m + 2, if e then 4 else 2, hsim, hCV, ?_, ?_, ?_⟩
        · refine ⟨hVS, ?_⟩
          rw [if_neg (by omega)]
          refine ⟨fun h => hdiv2 (d2.1 h), split_ite (hes.trans ?_) 4 2⟩
          rw [or_iff_right h2t]
          refine exists_congr fun X => ?_
          rw [show (2 * m + 1 + 3) / 2 = m + 2 by omega, e2', e4', e6',
            show (p : ℤ) * a2t * (p ^ (m + 2) * X) ^ 2 + p ^ (m + 3) * a4t * (p ^ (m + 2) * X) + p ^ (2 * m + 5) * a6s =
              p ^ (2 * m + 5) * (a2t * X ^ 2 + a4t * X + a6s) by ring]
          exact (pow_mul_dvd hp0 _).symm
        · push_cast; ring
        · cases e <;> rfl
    · rw [if_neg hdiv]
      rw [div_iff' hp0] at hdiv
      obtain ⟨e, he, hes⟩ := rootsexist1_spec hp a3t (-a6t)
      rw [he]
      refine ⟨_, rfl, W, 2 * m + 1, if e then 4 else 2, Sim.refl W, hC, ?_, ?_, ?_⟩
      · refine ⟨by rwa [show 2 * (m + 1) - 1 = 2 * m + 1 by omega] at hS, ?_⟩
        rw [if_pos (by omega)]
        refine ⟨fun h => hdiv (d1.1 h), split_ite (hes.trans ?_) 4 2⟩
        refine exists_congr fun Y => ?_
        rw [show (2 * m + 4) / 2 = m + 2 by omega, e3, e6,
          show ((p : ℤ) ^ (m + 2) * Y) ^ 2 + p ^ (m + 2) * a3t * (p ^ (m + 2) * Y) - p ^ (2 * m + 4) * a6t =
            p ^ (2 * m + 4) * (Y ^ 2 + a3t * Y + -a6t) by ring]
        exact (pow_mul_dvd hp0 _).symm
      · push_cast; ring
      · cases e <;> rfl

end Eclib.Tate
