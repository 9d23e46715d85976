import Verif.Sift.Local

/-!
# The character attached to a root of the cubic modulo `p`

`sval_class`: the value of the `x - e` map at a point is a square times the number `sval`.
`eta`: the resulting homomorphism `E(ℚ) → ℤ/2`.
-/

namespace Eclib.Sift

open WeierstrassCurve Polynomial Eclib.Curve

variable {p : ℕ} [hp : Fact p.Prime]

theorem toZMod_ofNat (n : ℕ) [n.AtLeastTwo] : PadicInt.toZMod (OfNat.ofNat n : ℤ_[p]) = OfNat.ofNat n := map_ofNat _ n

/-- the data of a good prime with a root of the cubic -/
structure Good (p : ℕ) [Fact p.Prime] (E : Cv) (θ : ℤ) (Θ : ℤ_[p]) : Prop where
  h5 : 5 ≤ p
  hΔ : ¬ (p : ℤ) ∣ E.W.Δ
  root : Θ ^ 3 - 27 * (E.W.c₄ : ℤ_[p]) * Θ - 54 * (E.W.c₆ : ℤ_[p]) = 0
  red : PadicInt.toZMod Θ = (θ : ZMod p)

theorem Good.p2 {E : Cv} {θ : ℤ} {Θ : ℤ_[p]} (g : Good p E θ Θ) : p ≠ 2 := by
  have := g.h5
  omega

theorem Good.mod {E : Cv} {θ : ℤ} {Θ : ℤ_[p]} (g : Good p E θ Θ) :
    (θ : ZMod p) ^ 3 - 27 * (E.W.c₄ : ZMod p) * θ - 54 * (E.W.c₆ : ZMod p) = 0 := by
  have h := congrArg PadicInt.toZMod g.root
  rwa [map_sub, map_sub, map_mul, map_mul, map_mul, map_pow, map_intCast, map_intCast, map_zero, toZMod_ofNat, toZMod_ofNat,
    g.red] at h

theorem coe_hom (a : ℤ_[p]) : (a : ℚ_[p]) = PadicInt.Coe.ringHom a := rfl

/-- a square times a unit -/
theorem unit_class (hp2 : p ≠ 2) {a : ℤ_[p]} {v : ℤ} (hv : (v : ZMod p) ≠ 0) (h : PadicInt.toZMod a = (v : ZMod p)) :
    ∃ s : ℚ_[p], s ≠ 0 ∧ (a : ℚ_[p]) = s * s * (v : ℚ_[p]) := by
  have ha : PadicInt.toZMod a ≠ 0 := by rwa [h]
  obtain ⟨t, ht⟩ := mul_square hp2 (u := a) (v := (v : ℤ_[p])) ha (by rw [h, map_intCast])
  have ht' : (t : ℚ_[p]) * t = a * (v : ℚ_[p]) := by
    have := congrArg (PadicInt.Coe.ringHom (p := p)) ht
    rw [map_mul, map_mul, map_intCast] at this
    exact this
  have hv0 : (v : ℚ_[p]) ≠ 0 := by
    intro h0
    apply hv
    have : v = 0 := by exact_mod_cast h0
    rw [this]
    simp
  have ha0 : (a : ℚ_[p]) ≠ 0 := by
    intro h0
    apply ha
    have : a = 0 := PadicInt.ext h0
    rw [this, map_zero]
  refine ⟨t / v, ?_, ?_⟩
  · apply div_ne_zero _ hv0
    intro h0
    rw [h0, mul_zero] at ht'
    exact mul_ne_zero ha0 hv0 ht'.symm
  · field_simp
    linear_combination -ht'

section
variable {E : Cv} {θ : ℤ} {Θ : ℤ_[p]} {u d : ℤ}

theorem sval_unit (g : Good p E θ Θ) (hud : IsCoprime u d) :
    ((sval E.W.c₄ p θ (36 * u + 3 * E.W.b₂ * d ^ 2) (d ^ 2) : ℤ) : ZMod p) ≠ 0 := by
  unfold sval
  split
  · rename_i h
    have hx : ((36 * u + 3 * E.W.b₂ * d ^ 2 - θ * d ^ 2 : ℤ) : ZMod p) = 0 := (ZMod.intCast_zmod_eq_zero_iff_dvd _ p).2 h
    obtain ⟨h2, h3⟩ := small_ne g.h5
    have hd : (d : ZMod p) ≠ 0 := by
      intro hd
      push_cast at hx
      rw [hd] at hx
      have hu : (u : ZMod p) = 0 := by
        have : (2 : ZMod p) ^ 2 * 3 ^ 2 * u = 0 := by linear_combination hx
        exact (mul_eq_zero.1 this).resolve_left (mul_ne_zero (pow_ne_zero _ h2) (pow_ne_zero _ h3))
      obtain ⟨a, b, hab⟩ := hud
      have := congrArg (fun t : ℤ => (t : ZMod p)) hab
      push_cast at this
      rw [hu, hd] at this
      simp at this
    have hs := root_simple g.h5 E g.hΔ g.mod
    push_cast at hx ⊢
    intro h0
    apply mul_ne_zero hs (pow_ne_zero 4 hd)
    linear_combination h0 - 3 * (36 * (u : ZMod p) + 3 * E.W.b₂ * d ^ 2 + θ * d ^ 2) * hx
  · rename_i h
    rwa [Ne, ZMod.intCast_zmod_eq_zero_iff_dvd]

/-- **The local image.** The value of the `x - e` map at the point with `x`-coordinate `u/d²` is a non-zero square of `ℚ_p`
times the integer `sval` -/
theorem sval_class (g : Good p E θ Θ) (hud : IsCoprime u d) (hd0 : d ≠ 0) {x y : ℚ} (hxy : E.Q.toAffine.Nonsingular x y)
    (hx : x * (d : ℚ) ^ 2 = u) :
    ∃ s : ℚ_[p], s ≠ 0 ∧ dl (Ep p E) (rt E Θ) (toP p E (.some x y hxy)) =
      s * s * ((sval E.W.c₄ p θ (36 * u + 3 * E.W.b₂ * d ^ 2) (d ^ 2) : ℤ) : ℚ_[p]) := by
  obtain ⟨h', hP⟩ := toP_some (p := p) E hxy
  have z3 : PadicInt.toZMod (3 : ℤ_[p]) = 3 := map_ofNat _ 3
  have z27 : PadicInt.toZMod (27 : ℤ_[p]) = 27 := map_ofNat _ 27
  have z36 : PadicInt.toZMod (36 : ℤ_[p]) = 36 := map_ofNat _ 36
  have c3 : PadicInt.Coe.ringHom (3 : ℤ_[p]) = 3 := map_ofNat _ 3
  have c27 : PadicInt.Coe.ringHom (27 : ℤ_[p]) = 27 := map_ofNat _ 27
  have c36 : PadicInt.Coe.ringHom (36 : ℤ_[p]) = 36 := map_ofNat _ 36
  rw [hP]
  have hu := sval_unit g hud
  have hdp : (d : ℚ_[p]) ≠ 0 := by exact_mod_cast hd0
  have hxp : (x : ℚ_[p]) * (d : ℚ_[p]) ^ 2 = u := by exact_mod_cast congrArg (fun t : ℚ => (t : ℚ_[p])) hx
  have hrt : 36 * rt E Θ + 3 * (E.W.b₂ : ℚ_[p]) = Θ := by
    unfold rt
    ring
  have hdx : 36 * (d : ℚ_[p]) ^ 2 * ((x : ℚ_[p]) - rt E Θ) = 36 * u + 3 * (E.W.b₂ : ℚ_[p]) * d ^ 2 - Θ * d ^ 2 := by
    linear_combination 36 * hxp - (d : ℚ_[p]) ^ 2 * hrt
  show ∃ s : ℚ_[p], s ≠ 0 ∧ (if (x : ℚ_[p]) = rt E Θ then g2' (Ep p E) (rt E Θ) else (x : ℚ_[p]) - rt E Θ) = _
  by_cases hα : (p : ℤ) ∣ 36 * u + 3 * E.W.b₂ * d ^ 2 - θ * d ^ 2
  · have hs : sval E.W.c₄ p θ (36 * u + 3 * E.W.b₂ * d ^ 2) (d ^ 2) =
        3 * (36 * u + 3 * E.W.b₂ * d ^ 2) ^ 2 - 27 * E.W.c₄ * (d ^ 2) ^ 2 := if_pos hα
    rw [hs] at hu ⊢
    by_cases hxe : (x : ℚ_[p]) = rt E Θ
    · rw [if_pos hxe]
      refine ⟨1 / (18 * (d : ℚ_[p]) ^ 2), one_div_ne_zero (mul_ne_zero (by norm_num) (pow_ne_zero _ hdp)), ?_⟩
      have hg := g2'_scale E (rt E Θ)
      rw [hrt] at hg
      rw [hxe, sub_self, mul_zero] at hdx
      have e : ((3 * (36 * u + 3 * E.W.b₂ * d ^ 2) ^ 2 - 27 * E.W.c₄ * (d ^ 2) ^ 2 : ℤ) : ℚ_[p]) =
          324 * g2' (Ep p E) (rt E Θ) * d ^ 4 := by
        push_cast
        linear_combination -(d : ℚ_[p]) ^ 4 * hg - 3 * (36 * (u : ℚ_[p]) + 3 * E.W.b₂ * d ^ 2 + Θ * d ^ 2) * hdx
      rw [e]
      field_simp
      norm_num
    · rw [if_neg hxe]
      set X : ℤ := 36 * u + 3 * E.W.b₂ * d ^ 2 with hX
      obtain ⟨s, hs0, hs1⟩ := unit_class g.p2 (a := (X : ℤ_[p]) ^ 2 + (X : ℤ_[p]) * Θ * (d : ℤ_[p]) ^ 2 +
        Θ ^ 2 * (d : ℤ_[p]) ^ 4 - 27 * (E.W.c₄ : ℤ_[p]) * (d : ℤ_[p]) ^ 4) hu (by
          have hx0 : (X : ZMod p) - θ * (d : ZMod p) ^ 2 = 0 := by
            have := (ZMod.intCast_zmod_eq_zero_iff_dvd _ p).2 hα
            push_cast at this
            exact this
          simp only [map_add, map_sub, map_mul, map_pow, map_intCast, g.red, z27]
          push_cast
          linear_combination -(2 * (X : ZMod p) + θ * (d : ZMod p) ^ 2) * hx0)
      have hsq := sq_eq (W := Ep p E) h'.1
      set w : ℚ_[p] := 2 * (y : ℚ_[p]) + (Ep p E).a₁ * x + (Ep p E).a₃ with hw
      have hsc := g2_scale E (x : ℚ_[p])
      have hXp : (X : ℚ_[p]) = 36 * u + 3 * (E.W.b₂ : ℚ_[p]) * d ^ 2 := by
        rw [hX]
        push_cast
        ring
      have hco := coe_root E g.root
      have hγ : ((((X : ℤ_[p]) ^ 2 + (X : ℤ_[p]) * Θ * (d : ℤ_[p]) ^ 2 +
        Θ ^ 2 * (d : ℤ_[p]) ^ 4 - 27 * (E.W.c₄ : ℤ_[p]) * (d : ℤ_[p]) ^ 4 : ℤ_[p])) : ℚ_[p]) =
          (X : ℚ_[p]) ^ 2 + (X : ℚ_[p]) * Θ * (d : ℚ_[p]) ^ 2 +
        (Θ : ℚ_[p]) ^ 2 * (d : ℚ_[p]) ^ 4 - 27 * (E.W.c₄ : ℚ_[p]) * (d : ℚ_[p]) ^ 4 := by
        rw [coe_hom]
        simp only [map_add, map_sub, map_mul, map_pow, map_intCast, c27]
        rfl
      rw [hγ] at hs1
      set γ : ℚ_[p] := (X : ℚ_[p]) ^ 2 + (X : ℚ_[p]) * Θ * (d : ℚ_[p]) ^ 2 +
        (Θ : ℚ_[p]) ^ 2 * (d : ℚ_[p]) ^ 4 - 27 * (E.W.c₄ : ℚ_[p]) * (d : ℚ_[p]) ^ 4 with hγd
      have hXx : (36 * (x : ℚ_[p]) + 3 * (E.W.b₂ : ℚ_[p])) * d ^ 2 = X := by
        rw [hXp]
        linear_combination 36 * hxp
      have hmain : 11664 * w ^ 2 * (d : ℚ_[p]) ^ 4 = 36 * ((x : ℚ_[p]) - rt E Θ) * γ := by
        have hd6 : (d : ℚ_[p]) ^ 2 ≠ 0 := pow_ne_zero _ hdp
        apply mul_left_cancel₀ hd6
        have e1 : (d : ℚ_[p]) ^ 2 * (36 * ((x : ℚ_[p]) - rt E Θ) * γ) = ((X : ℚ_[p]) - Θ * d ^ 2) * γ := by
          rw [hXp]
          linear_combination γ * hdx
        rw [e1, hγd]
        have e2 : 11664 * w ^ 2 * (d : ℚ_[p]) ^ 6 = (X : ℚ_[p]) ^ 3 - 27 * (E.W.c₄ : ℚ_[p]) * X * d ^ 4
            - 54 * (E.W.c₆ : ℚ_[p]) * d ^ 6 := by
          rw [← hXx, hsq]
          linear_combination (d : ℚ_[p]) ^ 6 * hsc
        linear_combination e2 + (d : ℚ_[p]) ^ 6 * hco
      set v : ℚ_[p] := ((3 * X ^ 2 - 27 * E.W.c₄ * (d ^ 2) ^ 2 : ℤ) : ℚ_[p]) with hv
      have hv0 : v ≠ 0 := by
        intro h0
        apply hu
        have : (3 * X ^ 2 - 27 * E.W.c₄ * (d ^ 2) ^ 2 : ℤ) = 0 := Int.cast_eq_zero.1 h0
        rw [this]
        simp
      have hkey : (x : ℚ_[p]) - rt E Θ = (18 * w * d ^ 2 / (s * v)) * (18 * w * d ^ 2 / (s * v)) * v := by
        rw [hs1] at hmain
        field_simp
        linear_combination -(1 / 36 : ℚ_[p]) * hmain
      refine ⟨18 * w * d ^ 2 / (s * v), ?_, hkey⟩
      intro h0
      rw [h0, mul_zero, zero_mul] at hkey
      exact hxe (sub_eq_zero.1 hkey)
  · have hs : sval E.W.c₄ p θ (36 * u + 3 * E.W.b₂ * d ^ 2) (d ^ 2) =
        36 * u + 3 * E.W.b₂ * d ^ 2 - θ * d ^ 2 := if_neg hα
    rw [hs] at hu ⊢
    obtain ⟨s, hs0, hs1⟩ := unit_class g.p2 (a := 36 * (u : ℤ_[p]) + 3 * (E.W.b₂ : ℤ_[p]) * (d : ℤ_[p]) ^ 2 -
      Θ * (d : ℤ_[p]) ^ 2) hu (by
        simp only [map_add, map_sub, map_mul, map_pow, map_intCast, g.red, z3, z36]
        push_cast
        ring)
    have hc : ((36 * (u : ℤ_[p]) + 3 * (E.W.b₂ : ℤ_[p]) * (d : ℤ_[p]) ^ 2 - Θ * (d : ℤ_[p]) ^ 2 : ℤ_[p]) : ℚ_[p]) =
        36 * u + 3 * (E.W.b₂ : ℚ_[p]) * d ^ 2 - Θ * d ^ 2 := by
      rw [coe_hom]
      simp only [map_add, map_sub, map_mul, map_pow, map_intCast, c3, c36]
      rfl
    rw [hc] at hs1
    set v : ℚ_[p] := ((36 * u + 3 * E.W.b₂ * d ^ 2 - θ * d ^ 2 : ℤ) : ℚ_[p]) with hv
    have hv0 : v ≠ 0 := by
      intro h0
      apply hu
      have : (36 * u + 3 * E.W.b₂ * d ^ 2 - θ * d ^ 2 : ℤ) = 0 := Int.cast_eq_zero.1 h0
      rw [this]
      simp
    have hxe : (x : ℚ_[p]) ≠ rt E Θ := by
      intro h0
      rw [h0, sub_self, mul_zero] at hdx
      rw [← hdx] at hs1
      exact mul_ne_zero (mul_ne_zero hs0 hs0) hv0 hs1.symm
    rw [if_neg hxe]
    refine ⟨s / (6 * d), div_ne_zero hs0 (mul_ne_zero (by norm_num) hdp), ?_⟩
    rw [← hdx] at hs1
    field_simp
    linear_combination hs1
end

/-! ## The homomorphism -/

/-- the classes represented by integers prime to `p` -/
def Cls (p : ℕ) [Fact p.Prime] (a : ℚ_[p]) (v : ℤ) : Prop := (v : ZMod p) ≠ 0 ∧ ∃ s : ℚ_[p], s ≠ 0 ∧ a = s * s * (v : ℚ_[p])

theorem Cls.isSquare (hp2 : p ≠ 2) {a : ℚ_[p]} {v : ℤ} (h : Cls p a v) : IsSquare a ↔ IsSquare (v : ZMod p) := by
  obtain ⟨hv, s, hs, rfl⟩ := h
  rw [← isSquare_int hp2 hv]
  constructor
  · rintro ⟨r, hr⟩
    refine ⟨r / s, ?_⟩
    field_simp
    linear_combination hr
  · rintro ⟨r, hr⟩
    exact ⟨s * r, by rw [hr]; ring⟩

theorem Cls.mul {a b : ℚ_[p]} {v w : ℤ} (h : Cls p a v) (h' : Cls p b w) : Cls p (a * b) (v * w) := by
  obtain ⟨hv, s, hs, rfl⟩ := h
  obtain ⟨hw, t, ht, rfl⟩ := h'
  refine ⟨not_dvd_mul hv hw, s * t, mul_ne_zero hs ht, ?_⟩
  push_cast
  ring

theorem cls_exists {E : Cv} {θ : ℤ} {Θ : ℤ_[p]} (g : Good p E θ Θ) (A : E.Pt) :
    ∃ v, Cls p (dl (Ep p E) (rt E Θ) (toP p E A)) v := by
  match A with
  | .zero =>
    refine ⟨1, by simp, 1, one_ne_zero, ?_⟩
    have : toP p E .zero = .zero := map_zero (toP p E)
    rw [this]
    simp [dl]
  | .some x y h =>
    have hΔ : E.W.Δ ≠ 0 := fun h0 => g.hΔ (by rw [h0]; exact dvd_zero _)
    obtain ⟨P, hP, hr, hrep⟩ := (Props.C31_represents E hΔ).2 (.some x y h)
    rw [Rep.some_iff] at hrep
    obtain ⟨u, d, hd, hX, hZ, hc⟩ := reduced_shape ((P2.isvalid_iff E P).1 hP).2 hr hrep.1
    have hd0 : d ≠ 0 := hd.ne'
    have hx : x * (d : ℚ) ^ 2 = u := by
      have := hrep.2.1
      rw [hX, hZ] at this
      push_cast at this
      have hdq : (d : ℚ) ≠ 0 := by exact_mod_cast hd0
      apply mul_right_cancel₀ hdq
      linear_combination -this
    exact ⟨_, sval_unit g hc, sval_class g hc hd0 h hx⟩

open Classical in
/-- the homomorphism `E(ℚ) → ℤ/2` attached to the root `Θ` -/
noncomputable def eta {E : Cv} {θ : ℤ} {Θ : ℤ_[p]} (g : Good p E θ Θ) : E.Pt →+ ZMod 2 :=
  AddMonoidHom.mk' (fun A => if IsSquare (dl (Ep p E) (rt E Θ) (toP p E A)) then 0 else 1) (by
    intro A B
    have hp2 := g.p2
    obtain ⟨v, hv⟩ := cls_exists g A
    obtain ⟨w, hw⟩ := cls_exists g B
    obtain ⟨z, hz⟩ := cls_exists g (A + B)
    have h2 : (2 : ℚ_[p]) ≠ 0 := by norm_num
    have hΔ : (Ep p E).Δ ≠ 0 := by
      rw [Ep_eq, map_Δ]
      have : E.W.Δ ≠ 0 := fun h0 => g.hΔ (by rw [h0]; exact dvd_zero _)
      simpa using this
    have hadd := dl_add h2 hΔ (g2_rt E g.root) (toP p E A) (toP p E B)
    rw [← map_add, ((hv.mul hw).mul hz).isSquare hp2] at hadd
    simp only [hv.isSquare hp2, hw.isSquare hp2, hz.isSquare hp2]
    push_cast at hadd
    have hF : ringChar (ZMod p) ≠ 2 := by
      rw [ZMod.ringChar_zmod_n]
      exact hp2
    have q (a : ℤ) (ha : (a : ZMod p) ≠ 0) := quadraticChar_one_iff_isSquare ha
    have hm := (quadraticChar_one_iff_isSquare (mul_ne_zero (mul_ne_zero hv.1 hw.1) hz.1)).2 hadd
    rw [map_mul, map_mul] at hm
    simp only [← q v hv.1, ← q w hw.1, ← q z hz.1]
    rcases quadraticChar_dichotomy hv.1 with h1 | h1 <;> rcases quadraticChar_dichotomy hw.1 with h3 | h3 <;>
      rcases quadraticChar_dichotomy hz.1 with h4 | h4 <;> rw [h1, h3, h4] at hm ⊢ <;> (revert hm; decide))

/-- **The character and its computation.** -/
theorem eta_spec {E : Cv} {θ : ℤ} {Θ : ℤ_[p]} (g : Good p E θ Θ) {u d : ℤ} (hud : IsCoprime u d) (hd0 : d ≠ 0) {x y : ℚ}
    (hxy : E.Q.toAffine.Nonsingular x y) (hx : x * (d : ℚ) ^ 2 = u) :
    eta g (.some x y hxy) = 0 ↔ IsSquare ((sval E.W.c₄ p θ (36 * u + 3 * E.W.b₂ * d ^ 2) (d ^ 2) : ℤ) : ZMod p) := by
  have hc : Cls p _ _ := ⟨sval_unit g hud, sval_class g hud hd0 hxy hx⟩
  rw [← hc.isSquare g.p2]
  rw [eta, AddMonoidHom.mk'_apply]
  split
  · simp [*]
  · simp [*]

end Eclib.Sift
