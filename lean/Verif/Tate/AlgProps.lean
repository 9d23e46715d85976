import Verif.Tate.Alg
import Verif.Tate.RedModel
import Verif.Curve.Minimal
import Verif.Marith.Props
import Mathlib.NumberTheory.Padics.PadicVal.Basic

/-!
# C63: Tate's algorithm

The constructor `CurveRed(E)` returns a global minimal model, one entry for every prime dividing its
discriminant, and in each entry the reduction type in the sense of `HasType`; an equation has at most
one type, and has one exactly when it is minimal at the prime.
-/

namespace Eclib.Tate

open WeierstrassCurve
open Eclib.Marith (XGcd SqrRootMod val div mod invmod)
open Eclib.Curve

/-- no integral equation isomorphic over the rationals has a smaller discriminant -/
def GlobMin (W : WeierstrassCurve ℤ) : Prop :=
  ∀ (W'' : WeierstrassCurve ℤ) (C : VariableChange ℚ),
    C • W.map (Int.castRingHom ℚ) = W''.map (Int.castRingHom ℚ) → W.Δ ∣ W''.Δ

/-- what an entry of `reduct_array` must say about the curve at `p` -/
structure Correct (p : ℕ) (W : WeierstrassCurve ℤ) (red : Red) : Prop where
  /-- `ord_p_discr` -/
  disc : red.ordDisc = padicValInt p W.Δ
  /-- `Kcode` and `c_p`; `ord_p_N` by Ogg's formula -/
  type : ∃ k c, HasType p W k c ∧ red.code = k.code ∧ red.cp = c ∧
    red.ordN = padicValInt p W.Δ - k.components + 1
  /-- `ord_p_j_denom` -/
  j : W.c₄ ≠ 0 → red.ordJ = max 0 ((padicValInt p W.Δ : ℤ) - 3 * padicValInt p W.c₄)

theorem val_padic {p : ℕ} (hp : p.Prime) {x : ℤ} (hx : x ≠ 0) : val p x = padicValInt p x := by
  have : Fact p.Prime := ⟨hp⟩
  have h2 : (2 : ℤ) ≤ |(p : ℤ)| := by
    rw [abs_of_nonneg (by positivity)]; exact_mod_cast hp.two_le
  obtain ⟨v1, v2⟩ := (Marith.Props.C06_val_big p x).1 h2 hx
  have e1 := (padicValInt_dvd_iff (p := p) (val p x) x).1 v1
  have e2 := (padicValInt_dvd_iff (p := p) (val p x + 1) x).not.1 v2
  push Not at e2
  rcases e1 with e1 | e1
  · exact absurd e1 hx
  · omega

theorem Correct.of_found {p : ℕ} (hp : p.Prime) {W : WeierstrassCurve ℤ} (hD : W.Δ ≠ 0) {C : Cd} {red : Red}
    (h : Found p W (val p W.Δ) (ordJ p W.c₄ W.Δ) (C, some red)) : Correct p W red := by
  obtain ⟨V, hV, hC, h | h⟩ := h
  · obtain ⟨red', k, c, h1, h2, h3, h4, h5, h6, h7⟩ := h
    cases h1
    rw [val_padic hp hD] at h3 h4
    refine ⟨h3, ⟨k, c, ⟨V, hV, h2⟩, h6, h7, h4⟩, fun h0 => ?_⟩
    rw [h5, ordJ, val_padic hp hD, val_padic hp h0]
  · exact absurd h.1 (by simp)

theorem Sim.disc {W V : WeierstrassCurve ℤ} (h : Sim W V) : V.Δ = W.Δ := by
  obtain ⟨r, s, t, h⟩ := sim_iff.1 h
  exact h.disc

theorem Sim.c4 {W V : WeierstrassCurve ℤ} (h : Sim W V) : V.c₄ = W.c₄ := by
  obtain ⟨r, s, t, h⟩ := sim_iff.1 h
  exact h.c4

theorem Sim.c6 {W V : WeierstrassCurve ℤ} (h : Sim W V) : V.c₆ = W.c₆ := by
  obtain ⟨r, s, t, h⟩ := sim_iff.1 h
  exact h.c6

theorem not_pow_dvd {p : ℕ} (hp : p.Prime) {D : ℤ} (hD : D ≠ 0) {fuel : ℕ} (hf : D.natAbs ≤ fuel) :
    ¬ (p : ℤ) ^ (fuel + 7) ∣ D := by
  intro h
  have h1 := Int.natAbs_dvd_natAbs.2 h
  rw [Int.natAbs_pow, Int.natAbs_natCast] at h1
  have h2 := Nat.le_of_dvd (by omega) h1
  have h3 : fuel + 7 < p ^ (fuel + 7) := Nat.lt_pow_self hp.one_lt
  omega

/-- the loop over the bad primes, for a curve whose working copy `C` holds an equation obtained by changes
of coordinates -/
theorem tateLoop_spec (L : Lib) {W : WeierstrassCurve ℤ} (hD : W.Δ ≠ 0) {fuel : ℕ} (hf : W.Δ.natAbs ≤ fuel)
    (hmin : ∀ p : ℕ, p.Prime → ¬ NonMinimal p W) :
    ∀ (ps : List ℤ) (C : Cd) (V : WeierstrassCurve ℤ), Sim W V → Is C V →
      (∀ p ∈ ps, 0 < p ∧ Prime p ∧ p ∣ W.Δ) →
      ∃ l, tateLoop L fuel W.c₄ W.c₆ W.Δ ps C = some l ∧ l.map Prod.fst = ps ∧
        ∀ e ∈ l, Correct e.1.toNat W e.2
  | [], C, V, _, _, _ => ⟨[], rfl, rfl, by simp⟩
  | p :: ps, C, V, hV, hC, hps => by
    obtain ⟨p0, p1, p2⟩ := hps p (by simp)
    obtain ⟨q, rfl⟩ : ∃ q : ℕ, p = q := ⟨p.toNat, by omega⟩
    have hq : q.Prime := Nat.prime_iff_prime_int.2 p1
    obtain ⟨⟨C', o⟩, hr, hfound⟩ := tateP_spec L hq (fuel := fuel) hC (by rw [hV.disc]; exact p2)
      (by rw [hV.disc]; exact hD) (by rw [hV.disc]; exact not_pow_dvd hq hD hf)
    rw [hV.disc, hV.c4] at hr hfound
    rw [hV.c6] at hr
    have hfound' := hfound
    obtain ⟨U, hU, hCU, h | h⟩ := hfound
    · obtain ⟨red, k, c, h1, h2⟩ := h
      simp only at h1
      subst h1
      obtain ⟨l, hl, hl1, hl2⟩ := tateLoop_spec L hD hf hmin ps C' U (hV.trans hU) hCU
        (fun x hx => hps x (by simp [hx]))
      refine ⟨((q : ℤ), red) :: l, by simp only [tateLoop, hr, hl, Option.map_some], by simp [hl1], ?_⟩
      intro e he
      rcases List.mem_cons.1 he with rfl | he
      · simp only [Int.toNat_natCast]
        have := hfound'.sim hV
        exact Correct.of_found hq hD this
      · exact hl2 e he
    · exact absurd ⟨U, hV.trans hU, h.2⟩ (hmin q hq)

/-- a change of coordinates is one over the rationals -/
theorem Sim.rat {W V : WeierstrassCurve ℤ} (h : Sim W V) :
    ∃ C : VariableChange ℚ, C • W.map (Int.castRingHom ℚ) = V.map (Int.castRingHom ℚ) := by
  obtain ⟨r, s, t, rfl⟩ := h
  exact ⟨(⟨1, r, s, t⟩ : VariableChange ℤ).map (Int.castRingHom ℚ), by rw [map_variableChange]⟩

/-- an equation that is not minimal at `p` is isomorphic to one of smaller discriminant -/
theorem NM.smaller {p : ℕ} (hp : p.Prime) {V : WeierstrassCurve ℤ} (h : NM p V) :
    ∃ (U : WeierstrassCurve ℤ) (C : VariableChange ℚ),
      C • V.map (Int.castRingHom ℚ) = U.map (Int.castRingHom ℚ) ∧ V.Δ = p ^ 12 * U.Δ := by
  obtain ⟨⟨b1, h1⟩, ⟨b2, h2⟩, ⟨b3, h3⟩, ⟨b4, h4⟩, ⟨b6, h6⟩⟩ := h
  have hp0 : (p : ℚ) ≠ 0 := by exact_mod_cast hp.ne_zero
  refine ⟨⟨b1, b2, b3, b4, b6⟩, ⟨Units.mk0 (p : ℚ) hp0, 0, 0, 0⟩, ?_, ?_⟩
  · ext <;> simp [variableChange_def, h1, h2, h3, h4, h6] <;> field_simp
  · simp only [Δ, b₂, b₄, b₆, b₈, h1, h2, h3, h4, h6]; ring

/-- C63: a globally minimal equation is minimal at every prime -/
theorem GlobMin.not_nonMinimal {W : WeierstrassCurve ℤ} (hD : W.Δ ≠ 0) (h : GlobMin W) {p : ℕ}
    (hp : p.Prime) : ¬ NonMinimal p W := by
  rintro ⟨V, hV, hN⟩
  obtain ⟨U, C, hC, hU⟩ := hN.smaller hp
  obtain ⟨C', hC'⟩ := hV.rat
  have hd := h U (C * C') (by rw [mul_smul, hC', hC])
  rw [← hV.disc, hU] at hd
  rw [← hV.disc, hU] at hD
  have hU0 : U.Δ ≠ 0 := fun h0 => hD (by rw [h0, mul_zero])
  have h1 : (p : ℤ) ^ 12 ∣ 1 := by
    have : (p : ℤ) ^ 12 * U.Δ ∣ 1 * U.Δ := by rw [one_mul]; exact hd
    exact Int.dvd_of_mul_dvd_mul_right hU0 this
  have h2 : (p : ℤ) ∣ 1 := (dvd_pow_self _ (by norm_num)).trans h1
  exact (Nat.prime_iff_prime_int.1 hp).not_dvd_one h2

theorem ofAi_is {E : Cv} (h : E.W.Δ ≠ 0) : Is (Cd.ofAi E) E.W := by
  rw [Cd.ofAi_eq, if_neg h]
  exact ⟨rfl, rfl, rfl, rfl, rfl, rfl, rfl, rfl, rfl⟩

/-- the list holds the primes dividing `n` -/
def BadList (l : List ℤ) (n : ℤ) : Prop := l.Nodup ∧ ∀ p, p ∈ l ↔ 0 < p ∧ Prime p ∧ p ∣ n

/-- the invariant of class `Curvedata`: the data belong to the curve with coefficients `E`, the flags are
true to their names -/
structure Cdf.Ok (S : Cdf) (E : Cv) : Prop where
  cd : S.cd = Cd.ofAi E
  ns : E.W.Δ ≠ 0
  factored : S.factored = true → BadList S.bad E.W.Δ
  minimal : S.minimal = true → GlobMin E.W

/-- isomorphism over the rationals -/
def QIso (W V : WeierstrassCurve ℤ) : Prop :=
  ∃ C : VariableChange ℚ, C • W.map (Int.castRingHom ℚ) = V.map (Int.castRingHom ℚ)

theorem QIso.refl (W : WeierstrassCurve ℤ) : QIso W W := ⟨1, by rw [one_smul]⟩

theorem GlobMin.disc_dvd {W V : WeierstrassCurve ℤ} (h : GlobMin V) (hq : QIso W V) : V.Δ ∣ W.Δ := by
  obtain ⟨C, hC⟩ := hq
  exact h W C⁻¹ (by rw [← hC, inv_smul_smul])

theorem qiso_of {W V : WeierstrassCurve ℤ} {u r s t : ℤ} (hu : u ≠ 0)
    (k1 : u * V.a₁ - W.a₁ = 2 * s) (k2 : u ^ 2 * V.a₂ - W.a₂ + s * W.a₁ + s ^ 2 = 3 * r)
    (k3 : u ^ 3 * V.a₃ - W.a₃ - r * W.a₁ = 2 * t)
    (k4 : u ^ 4 * V.a₄ = W.a₄ - s * W.a₃ + 2 * r * W.a₂ - (t + r * s) * W.a₁ + 3 * r ^ 2 - 2 * s * t)
    (k6 : u ^ 6 * V.a₆ = W.a₆ + r * W.a₄ + r ^ 2 * W.a₂ + r ^ 3 - t * W.a₃ - t ^ 2 - r * t * W.a₁) :
    QIso W V := by
  have hu' : (u : ℚ) ≠ 0 := by exact_mod_cast hu
  have q1 : (u : ℚ) * V.a₁ - W.a₁ = 2 * s := by exact_mod_cast k1
  have q2 : (u : ℚ) ^ 2 * V.a₂ - W.a₂ + s * W.a₁ + s ^ 2 = 3 * r := by exact_mod_cast k2
  have q3 : (u : ℚ) ^ 3 * V.a₃ - W.a₃ - r * W.a₁ = 2 * t := by exact_mod_cast k3
  have q4 : (u : ℚ) ^ 4 * V.a₄ = W.a₄ - s * W.a₃ + 2 * r * W.a₂ - (t + r * s) * W.a₁ + 3 * r ^ 2 - 2 * s * t := by
    exact_mod_cast k4
  have q6 : (u : ℚ) ^ 6 * V.a₆ = W.a₆ + r * W.a₄ + r ^ 2 * W.a₂ + r ^ 3 - t * W.a₃ - t ^ 2 - r * t * W.a₁ := by
    exact_mod_cast k6
  refine ⟨⟨Units.mk0 (u : ℚ) hu', r, s, t⟩, ?_⟩
  ext
  · simp only [variableChange_def, map_a₁, eq_intCast, Units.val_inv_eq_inv_val, Units.val_mk0]
    rw [inv_mul_eq_iff_eq_mul₀ hu']; linarith
  · simp only [variableChange_def, map_a₁, map_a₂, eq_intCast, Units.val_inv_eq_inv_val, Units.val_mk0, inv_pow]
    rw [inv_mul_eq_iff_eq_mul₀ (pow_ne_zero _ hu')]; linarith
  · simp only [variableChange_def, map_a₁, map_a₃, eq_intCast, Units.val_inv_eq_inv_val, Units.val_mk0, inv_pow]
    rw [inv_mul_eq_iff_eq_mul₀ (pow_ne_zero _ hu')]; linarith
  · simp only [variableChange_def, map_a₁, map_a₂, map_a₃, map_a₄, eq_intCast, Units.val_inv_eq_inv_val,
      Units.val_mk0, inv_pow]
    rw [inv_mul_eq_iff_eq_mul₀ (pow_ne_zero _ hu'), q4]
  · simp only [variableChange_def, map_a₁, map_a₂, map_a₃, map_a₄, map_a₆, eq_intCast,
      Units.val_inv_eq_inv_val, Units.val_mk0, inv_pow]
    rw [inv_mul_eq_iff_eq_mul₀ (pow_ne_zero _ hu'), q6]

/-- C63: `minimalize()` keeps the invariant of the class; the new curve is a global minimal model of the
old one -/
theorem C63_minimalize {pdivs : ℤ → List ℤ} (hpd : PdivsOk pdivs) {S : Cdf} {E : Cv} (hS : S.Ok E) :
    ∃ E' : Cv, (S.minimalize pdivs).Ok E' ∧ (S.minimalize pdivs).minimal = true ∧ QIso E.W E'.W := by
  unfold Cdf.minimalize
  by_cases hm : S.minimal = true
  · rw [if_pos hm]; exact ⟨E, hS, hm, QIso.refl _⟩
  have hE := hS.ns
  rw [if_neg hm, if_neg (by rw [hS.cd, Props.C26_isnull]; exact hE)]
  have hglob := fun W'' C h => Props.C30_global pdivs hpd E.W W'' hE C h
  obtain ⟨u, W', h1, hu, e4, e6, eD, -⟩ := Props.C30_minimise pdivs hpd E.W hE
  rw [h1] at hglob
  have hW'0 : W'.Δ ≠ 0 := by
    intro h; apply hE; rw [eD, h, mul_zero]
  have hval : validInvariants W'.c₄ W'.c₆ = true :=
    (Props.C28_valid_invariants _ _).2 ⟨W', hW'0, rfl, rfl⟩
  obtain ⟨f4, f6, f0, g2, g4, g6, g8, -⟩ := Props.C29_c4c6_to_ai _ _ hval
  obtain ⟨hc, hstd⟩ := Cd.ofAi_std hE
  have i4 : S.cd.c4 = E.W.c₄ := by rw [hS.cd, hstd.c4, hc]
  have i6 : S.cd.c6 = E.W.c₆ := by rw [hS.cd, hstd.c6, hc]
  have ico : S.cd.conncomp = if 0 < E.W.Δ then 2 else 1 := by rw [hS.cd, hstd.conncomp, hc]
  simp only [i4, i6, h1, ico]
  have hc4 : (if u > 1 then W'.c₄ else E.W.c₄) = W'.c₄ := by
    split_ifs with hu1
    · rfl
    · rw [e4, show u = 1 by omega]; ring
  have hc6 : (if u > 1 then W'.c₆ else E.W.c₆) = W'.c₆ := by
    split_ifs with hu1
    · rfl
    · rw [e6, show u = 1 by omega]; ring
  rw [hc4, hc6]
  generalize hr : c4c6ToAi W'.c₄ W'.c₆ = r at *
  have hΔ : r.toCv.W.Δ = W'.Δ := by
    have : (1728 : ℤ) ≠ 0 := by norm_num
    apply mul_left_cancel₀ this
    rw [c_relation, c_relation, f4, f6]
  obtain ⟨ρ, σ, τ, k1, k2, k3, k4, k6⟩ := Props.int_change E.W r.toCv.W u (by rw [e4, f4]) (by rw [e6, f6])
  have hq := qiso_of hu.ne' k1 k2 k3 k4 k6
  refine ⟨r.toCv, ⟨?_, f0, ?_, ?_⟩, trivial, hq⟩
  · rw [Cd.ofAi_eq, if_neg f0]
    simp only [g2, g4, g6, g8, f4, f6, hΔ]
    have : (0 < E.W.Δ) ↔ 0 < W'.Δ := by
      rw [eD]; exact mul_pos_iff_of_pos_left (by positivity)
    simp only [this]
  · intro hfac
    simp only at hfac
    simp only [hfac, if_true, hΔ]
    obtain ⟨b1, b2⟩ := hS.factored hfac
    split_ifs with hu1
    · refine ⟨b1.filter _, fun p => ?_⟩
      rw [List.mem_filter, b2]
      constructor
      · rintro ⟨⟨h1, h2, -⟩, h3⟩
        exact ⟨h1, h2, (div_iff' h1.ne' _).1 h3⟩
      · rintro ⟨h1, h2, h3⟩
        exact ⟨⟨h1, h2, h3.trans ⟨u ^ 12, by rw [eD]; ring⟩⟩, (div_iff' h1.ne' _).2 h3⟩
    · have : E.W.Δ = W'.Δ := by rw [eD, show u = 1 by omega]; ring
      rw [← this]
      exact ⟨b1, b2⟩
  · rintro - W'' C h
    rw [hΔ]
    obtain ⟨C', hC'⟩ := hq
    exact hglob W'' (C * C') (by rw [mul_smul, hC', h])

/-- C63: `curveRed` on a curve that is globally minimal -/
theorem curveRed_spec (L : Lib) {E : Cv} (hE : E.W.Δ ≠ 0) (hmin : GlobMin E.W) {ps : List ℤ}
    (hps : BadList ps E.W.Δ) {fuel : ℕ} (hf : E.W.Δ.natAbs ≤ fuel) :
    ∃ l, curveRed L fuel ps (Cd.ofAi E) = some (l, (l.map fun e => e.1 ^ e.2.ordN.toNat).prod) ∧
      l.map Prod.fst = ps ∧ ∀ e ∈ l, Correct e.1.toNat E.W e.2 := by
  obtain ⟨hc, hstd⟩ := Cd.ofAi_std hE
  have i4 : (Cd.ofAi E).c4 = E.W.c₄ := by rw [hstd.c4, hc]
  have i6 : (Cd.ofAi E).c6 = E.W.c₆ := by rw [hstd.c6, hc]
  have iD : (Cd.ofAi E).discr = E.W.Δ := by rw [hstd.discr, hc]
  obtain ⟨l, hl, h1, h2⟩ := tateLoop_spec L hE hf (fun p hp => hmin.not_nonMinimal hE hp) ps (Cd.ofAi E) E.W
    (Sim.refl _) (ofAi_is hE) (fun p hp => (hps.2 p).1 hp)
  refine ⟨l, ?_, h1, h2⟩
  unfold curveRed
  rw [i4, i6, iD, if_neg hE, hl]
  simp only [Option.map_some, Option.some.injEq, Prod.mk.injEq, true_and]
  rw [List.prod_eq_foldl, List.foldl_map]

/-- C63: the constructor `CurveRed(E)` returns for every curve a global minimal model `E'`; the table holds
each prime dividing the discriminant of `E'` exactly once and nothing else; each entry gives the exponent of
the discriminant, the Kodaira symbol, the number of rational components, the exponent of the conductor by
Ogg's formula and the denominator of `j`; and `N` is the product of the local contributions.  The bound
`fuel` on the number of passes of the `I*m` loop is never reached. -/
theorem C63_curve_red (L : Lib) {pdivs : ℤ → List ℤ} (hpd : PdivsOk pdivs) {S : Cdf} {E : Cv} (hS : S.Ok E)
    {fuel : ℕ} (hf : E.W.Δ.natAbs ≤ fuel) :
    ∃ (E' : Cv) (l : List (ℤ × Red)),
      curveRedOf L fuel pdivs S = some (Cd.ofAi E', l, (l.map fun e => e.1 ^ e.2.ordN.toNat).prod) ∧
      QIso E.W E'.W ∧ GlobMin E'.W ∧ BadList (l.map Prod.fst) E'.W.Δ ∧
      ∀ e ∈ l, Correct e.1.toNat E'.W e.2 := by
  obtain ⟨E', h1, h2, h3⟩ := C63_minimalize hpd hS
  generalize hT : S.minimalize pdivs = T at *
  have hg := h1.minimal h2
  have hE' := h1.ns
  obtain ⟨hc, hstd⟩ := Cd.ofAi_std hE'
  have iD : T.cd.discr = E'.W.Δ := by rw [h1.cd, hstd.discr, hc]
  have hbad : BadList (T.factor pdivs).bad E'.W.Δ := by
    unfold Cdf.factor
    split_ifs with hfac
    · exact h1.factored hfac
    · simp only [iD]
      exact hpd _ hE'
  have hfac : (T.factor pdivs).cd = Cd.ofAi E' := by
    rw [← h1.cd]; unfold Cdf.factor; split_ifs <;> rfl
  have hf' : E'.W.Δ.natAbs ≤ fuel :=
    (Nat.le_of_dvd (by have := hS.ns; omega) (Int.natAbs_dvd_natAbs.2 (hg.disc_dvd h3))).trans hf
  obtain ⟨l, hl, e1, e2⟩ := curveRed_spec L hE' hg hbad hf'
  refine ⟨E', l, ?_, h3, hg, by rw [e1]; exact hbad, e2⟩
  unfold curveRedOf
  simp only [hT, iD, if_neg hE', hfac, hl, Option.map_some]

/-- C63: an equation has at most one type -/
theorem C63_type_unique {p : ℕ} (hp : p.Prime) {W : WeierstrassCurve ℤ} {k k' : Kodaira} {c c' : ℕ}
    (h : HasType p W k c) (h' : HasType p W k' c') : k = k' ∧ c = c' := HasType.unique hp h h'

/-! ### the hypotheses can be met -/

/-- `FindRoots`, by exhaustive search -/
def roots0 (b c d p : Int) : List Int :=
  ((List.range p.toNat).map fun x : ℕ => (x : Int)).filter fun x => p ∣ x ^ 3 + b * x ^ 2 + c * x + d

/-- an implementation of the contract -/
def lib0 : Lib where
  xg := Marith.Props.xgcd0
  sq := Marith.Props.sqr0
  sq_one := by decide +kernel
  roots := roots0
  roots_spec b c d p _ := by
    unfold roots0
    refine ⟨(List.Nodup.map (fun a b h => by exact_mod_cast h) List.nodup_range).filter _, fun x => ?_⟩
    simp only [Int.toNat_natCast, List.mem_filter, List.mem_map, List.mem_range, decide_eq_true_eq]
    constructor
    · rintro ⟨⟨a, h1, rfl⟩, h2⟩
      exact ⟨⟨by omega, by omega⟩, h2⟩
    · rintro ⟨⟨h1, h2⟩, h3⟩
      exact ⟨⟨x.toNat, by omega, by omega⟩, h3⟩

/-- `pdivs`, by exhaustive search -/
def pdivs0 (n : ℤ) : List ℤ :=
  ((List.range (n.natAbs + 1)).filter fun p : ℕ => p.Prime ∧ (p : ℤ) ∣ n).map fun p : ℕ => (p : ℤ)

theorem pdivs0_ok : PdivsOk pdivs0 := by
  intro n hn
  unfold pdivs0
  refine ⟨List.Nodup.map (fun a b h => by exact_mod_cast h) (List.nodup_range.filter _), fun x => ?_⟩
  simp only [List.mem_map, List.mem_filter, List.mem_range, decide_eq_true_eq]
  constructor
  · rintro ⟨p, ⟨-, h2, h3⟩, rfl⟩
    exact ⟨by exact_mod_cast h2.pos, Nat.prime_iff_prime_int.1 h2, h3⟩
  · rintro ⟨h1, h2, h3⟩
    lift x to ℕ using h1.le
    refine ⟨x, ⟨?_, Nat.prime_iff_prime_int.2 h2, h3⟩, rfl⟩
    have := Nat.le_of_dvd (by omega) (Int.natAbs_dvd_natAbs.2 h3)
    simp only [Int.natAbs_natCast] at this
    omega

/-- C63: an equation has a type exactly when it is minimal at the prime -/
theorem C63_type_iff {p : ℕ} (hp : p.Prime) {W : WeierstrassCurve ℤ} (hD : W.Δ ≠ 0) :
    (∃ k c, HasType p W k c) ↔ ¬ NonMinimal p W := by
  constructor
  · rintro ⟨k, c, h⟩
    exact h.minimal hp
  · intro h
    by_cases hd : (p : ℤ) ∣ W.Δ
    · obtain ⟨res, -, V, hV, -, ⟨-, k, c, -, h2, -⟩ | h2⟩ := tateP_spec lib0 hp (fuel := W.Δ.natAbs)
        (C := ⟨⟨W.a₁, W.a₂, W.a₃, W.a₄, W.a₆⟩, W.b₂, W.b₄, W.b₆, W.b₈, 0, 0, 0, 0⟩)
        ⟨rfl, rfl, rfl, rfl, rfl, rfl, rfl, rfl, rfl⟩ hd hD (not_pow_dvd hp hD le_rfl)
      · exact ⟨k, c, V, hV, h2⟩
      · exact absurd ⟨V, hV, h2.2⟩ h
    · exact ⟨.I 0, 1, W, Sim.refl W, hd, rfl⟩

/-- the hypotheses of `C63_curve_red` for a non-minimal equation of the curve 11a1 -/
example : (⟨Cd.ofAi ⟨0, -4, 8, -160, -1280⟩, false, false, []⟩ : Cdf).Ok ⟨0, -4, 8, -160, -1280⟩ :=
  ⟨rfl, by decide +kernel, by simp, by simp⟩

/-- type `I5`, split, conductor 11 -/
example : curveRedOf lib0 9 pdivs0 ⟨Cd.ofAi ⟨0, -1, 1, -10, -20⟩, true, true, [11]⟩ =
    some (Cd.ofAi ⟨0, -1, 1, -10, -20⟩, [(11, ⟨5, 1, 5, 50, 5⟩)], 11) := by decide +kernel

/-- type `III` at 2, `I1` at 3: the curve 24a4, conductor 24 -/
example : curveRedOf lib0 9 (fun _ => [2, 3]) ⟨Cd.ofAi ⟨0, -1, 0, 1, 0⟩, false, false, []⟩ =
    some (Cd.ofAi ⟨0, -1, 0, 1, 0⟩, [(2, ⟨4, 3, 0, 3, 2⟩), (3, ⟨1, 1, 1, 10, 1⟩)], 24) := by decide +kernel


/-- type `IV*` with wild ramification: the curve 27a1 -/
example : (curveRedOf lib0 9 pdivs0 ⟨Cd.ofAi ⟨0, 0, 1, 0, -7⟩, true, true, [3]⟩).map Prod.snd =
    some ([(3, ⟨9, 3, 0, 5, 3⟩)], 27) := by decide +kernel

/-- types `II`, `I2` (non-split) and `I4*` -/
example : (curveRedOf lib0 9 pdivs0 ⟨Cd.ofAi ⟨0, 5, 0, 625, 0⟩, true, true, [2, 3, 5]⟩).map Prod.snd =
    some ([(2, ⟨4, 4, 0, 2, 1⟩), (3, ⟨2, 1, 2, 20, 2⟩), (5, ⟨10, 2, 4, 41, 4⟩)], 1200) := by decide +kernel

end Eclib.Tate
