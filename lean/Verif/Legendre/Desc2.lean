import Verif.Legendre.Places
import Verif.Arith.Props
import Mathlib.RingTheory.Int.Basic
import Verif.Bits.MakeNum
import Verif.Local.LocallySoluble

/-!
# `g_content` and `process_d3`
-/

namespace Eclib.Desc2

open Legendre (CSol CParam solveConic solveConicParam solveConic_spec solveConicParam_spec)
open Marith (XGcd SqrRootMod isqrt)
open Forms (Q G SU)
open Forms.Spec (quad quart act)
open Spec (IsPrimeDivisorList)

/-! ## the specification -/

/-- a point of the quartic `y² = g(x,z)` -/
def GPoint (g : G) (x y z : ℤ) : Prop := y ^ 2 = quart g.a g.b g.c g.d g.e x z ∧ ¬ (x = 0 ∧ z = 0)

/-- `g` is the quartic `g0` transformed by `m` -/
structure Tr (g0 : G) (m : SU) (g : G) : Prop where
  u : m.m00 ≠ 0
  det : m.m11 * m.m22 - m.m12 * m.m21 ≠ 0
  eqn : ∀ X Z, m.m00 ^ 2 * quart g.a g.b g.c g.d g.e X Z =
    quart g0.a g0.b g0.c g0.d g0.e (m.m11 * X + m.m12 * Z) (m.m21 * X + m.m22 * Z)

/-- what is assumed of the parts which are not modelled -/
structure DLib.Ok (L : DLib) : Prop where
  pdivs : ∀ n, n ≠ 0 → IsPrimeDivisorList n (L.pdivs n) ∧ (L.pdivs n).Pairwise (· < ·)
  ss : ∀ (g : G) (p : ℤ), g.disc ≠ 0 → 1000 ≤ p → Prime p →
    ∃ r, L.ss g.a g.b g.c g.d g.e p = some r ∧ (r = true ↔ LocSol.PointAt g p)
  redQ : ∀ g, g.disc ≠ 0 → (L.redQ g).det ≠ 0
  search : ∀ g x y z, L.search g = some (x, y, z) → GPoint g x y z

/-- the class `d3` of a point: `q1` and `q3` take values `d3` times a square at the same place -/
def HasClass (q1 q3 : Q) (d3 : ℤ) : Prop :=
  ∃ s t u v : ℤ, ¬ (s = 0 ∧ t = 0) ∧ quad q1.a q1.b q1.c s t = d3 * u ^ 2 ∧ quad q3.a q3.b q3.c s t = d3 * v ^ 2

/-- the class of a point is a class at all places -/
theorem HasClass.loc {q1 q3 : Q} {d3 : ℤ} (h : HasClass q1 q3 d3) : LocClass q1 q3 d3 := by
  obtain ⟨s, t, u, v, h0, h1, h3⟩ := h
  have key : ∀ (K : Type) [Field K] [CharZero K], KClass q1 q3 d3 K := by
    intro K _ _
    have c1 := congrArg (Int.cast : ℤ → K) h1
    have c3 := congrArg (Int.cast : ℤ → K) h3
    simp only [quad] at c1 c3
    push_cast at c1 c3
    refine ⟨s, t, u, v, fun h => h0 ⟨by exact_mod_cast h.1, by exact_mod_cast h.2⟩, ?_, ?_⟩
    · simp only [qv]; linear_combination c1
    · simp only [qv]; linear_combination c3
  exact ⟨key ℝ, fun p hp => haveI : Fact p.Prime := ⟨hp⟩; key ℚ_[p]⟩

/-! ## transforms -/

theorem Tr.disc {g0 g : G} {m : SU} (h : Tr g0 m g) (hd : g0.disc ≠ 0) : g.disc ≠ 0 := by
  have e : g.smul (m.m00 ^ 2) = g0.apply m.toU := by
    apply G.ext_fn
    rw [Forms.Props.C25_apply_transform]
    funext X Z
    rw [G.fn_smul]
    simp only [G.fn, act, Forms.U.toM]
    simpa using h.eqn X Z
  obtain ⟨i, j⟩ := Forms.Props.C25_invariants g0 m.toU
  rw [← e] at i j
  have i' : m.m00 ^ 4 * g.II = m.toU.det ^ 4 * g0.II := by
    rw [← i]; simp only [G.II, G.smul]; ring
  have j' : m.m00 ^ 6 * g.JJ = m.toU.det ^ 6 * g0.JJ := by
    rw [← j]; simp only [G.JJ, G.smul]; ring
  intro h0
  have : m.toU.det ^ 12 * g0.disc = m.m00 ^ 12 * g.disc := by
    simp only [G.disc]
    linear_combination -4 * ((m.m00 ^ 4 * g.II) ^ 2 + (m.m00 ^ 4 * g.II) * (m.toU.det ^ 4 * g0.II) +
      (m.toU.det ^ 4 * g0.II) ^ 2) * i' + (m.m00 ^ 6 * g.JJ + m.toU.det ^ 6 * g0.JJ) * j'
  rw [h0, mul_zero] at this
  exact (mul_ne_zero (pow_ne_zero 12 h.det) hd) this

/-- points are mapped forward … -/
theorem Tr.point {g0 g : G} {m : SU} (h : Tr g0 m g) {x y z : ℤ} (hp : GPoint g x y z) :
    GPoint g0 (m.m11 * x + m.m12 * z) (m.m00 * y) (m.m21 * x + m.m22 * z) := by
  refine ⟨by rw [← h.eqn, ← hp.1]; ring, fun h0 => hp.2 ⟨?_, ?_⟩⟩
  · exact (mul_eq_zero.mp (show (m.m11 * m.m22 - m.m12 * m.m21) * x = 0 by
      linear_combination m.m22 * h0.1 - m.m12 * h0.2)).resolve_left h.det
  · exact (mul_eq_zero.mp (show (m.m11 * m.m22 - m.m12 * m.m21) * z = 0 by
      linear_combination m.m11 * h0.2 - m.m21 * h0.1)).resolve_left h.det

/-- … and backward -/
theorem Tr.back {g0 g : G} {m : SU} (h : Tr g0 m g) {x y z : ℤ} (hp : GPoint g0 x y z) : ∃ x' y' z', GPoint g x' y' z' := by
  have e := h.eqn (m.m22 * x - m.m12 * z) (m.m11 * z - m.m21 * x)
  have e2 : m.m00 ^ 2 * quart g.a g.b g.c g.d g.e (m.m22 * x - m.m12 * z) (m.m11 * z - m.m21 * x) =
      ((m.m11 * m.m22 - m.m12 * m.m21) ^ 2 * y) ^ 2 := by
    rw [e, mul_pow, hp.1]
    simp only [quart]; ring
  obtain ⟨r, hr⟩ := sq_of_mul_sq h.u e2
  refine ⟨_, r, _, hr.symm, fun h0 => hp.2 ⟨?_, ?_⟩⟩
  · exact (mul_eq_zero.mp (show (m.m11 * m.m22 - m.m12 * m.m21) * x = 0 by
      linear_combination m.m11 * h0.1 + m.m12 * h0.2)).resolve_left h.det
  · exact (mul_eq_zero.mp (show (m.m11 * m.m22 - m.m12 * m.m21) * z = 0 by
      linear_combination m.m22 * h0.2 + m.m21 * h0.1)).resolve_left h.det

/-! ## g_content -/

theorem blocks_last (p : ℤ) (e : ℕ) (l : List ℤ) (hl : l ≠ []) (m : ℤ) (hm : l.getLast hl = m) (h : ∀ x ∈ l, x ∣ m) :
    ∃ h1 : Arith.blocks p e l ≠ [], ∀ x ∈ Arith.blocks p e l, x ∣ (Arith.blocks p e l).getLast h1 := by
  induction e generalizing l m with
  | zero => exact ⟨hl, by subst hm; exact h⟩
  | succ e ih =>
    obtain ⟨h1, h2⟩ := ih (l.map (p * ·)) (by simpa using hl) (p * m) (by rw [List.getLast_map, hm])
      (by
        intro x hx
        obtain ⟨y, hy, rfl⟩ := List.mem_map.mp hx
        exact mul_dvd_mul_left p (h y hy))
    have h3 : l ++ Arith.blocks p e (l.map (p * ·)) ≠ [] := by simp [hl]
    refine ⟨h3, ?_⟩
    simp only [Arith.blocks]
    rw [List.getLast_append_of_ne_nil (h₂ := h1)]
    intro x hx
    rcases List.mem_append.mp hx with hx | hx
    · have hm' : p * m ∈ Arith.blocks p e (l.map (p * ·)) := by
        have hin : p * m ∈ l.map (p * ·) := List.mem_map.mpr ⟨m, hm ▸ List.getLast_mem hl, rfl⟩
        cases e with
        | zero => exact hin
        | succ e => exact List.mem_append_left _ hin
      exact ((h x hx).trans (Dvd.intro_left p rfl)).trans (h2 _ hm')
    · exact h2 x hx

theorem sqdivs_last (a : ℤ) (ps : List ℤ) :
    ∃ h1 : Arith.sqdivs a ps ≠ [], ∀ x ∈ Arith.sqdivs a ps, x ∣ (Arith.sqdivs a ps).getLast h1 := by
  unfold Arith.sqdivs
  have : ∀ (ps : List ℤ) (l : List ℤ) (hl : l ≠ []), (∀ x ∈ l, x ∣ l.getLast hl) →
      ∃ h1 : ps.foldl (fun dl p => Arith.blocks p (Arith.val p a / 2) dl) l ≠ [],
        ∀ x ∈ ps.foldl (fun dl p => Arith.blocks p (Arith.val p a / 2) dl) l,
          x ∣ (ps.foldl (fun dl p => Arith.blocks p (Arith.val p a / 2) dl) l).getLast h1 := by
    intro ps
    induction ps with
    | nil => intro l hl h; exact ⟨hl, h⟩
    | cons p ps ih =>
      intro l hl h
      obtain ⟨h1, h2⟩ := blocks_last p (Arith.val p a / 2) l hl _ rfl h
      exact ih _ h1 h2
  exact this ps [1] (by simp) (by simp)

/-- `g_content`: the largest number whose square divides the coefficients -/
theorem gContent_spec (pd : ℤ → List ℤ) (hpd : ∀ n, n ≠ 0 → IsPrimeDivisorList n (pd n)) (g : G)
    (hg : ¬ (g.a = 0 ∧ g.b = 0 ∧ g.c = 0 ∧ g.d = 0 ∧ g.e = 0)) :
    0 < gContent pd g ∧ ∀ k : ℤ, k ∣ gContent pd g ↔
      k ^ 2 ∣ g.a ∧ k ^ 2 ∣ g.b ∧ k ^ 2 ∣ g.c ∧ k ^ 2 ∣ g.d ∧ k ^ 2 ∣ g.e := by
  have one : ∀ k : ℤ, k ^ 2 ∣ 1 → k ∣ 1 := fun k h => (Dvd.intro_left _ (sq k).symm).trans h
  have dg : ∀ k a b : ℤ, k ∣ gcd a b ↔ k ∣ a ∧ k ∣ b := fun k a b => Int.dvd_coe_gcd_iff
  have triv : ∀ k : ℤ, k ∣ 1 → ∀ x : ℤ, k ^ 2 ∣ x := fun k h x =>
    ((isUnit_of_dvd_one h).pow 2).dvd
  unfold gContent
  simp only
  split_ifs with h1 h2 h3 h4 h5
  · refine ⟨by rw [h1]; norm_num, fun k => ?_⟩
    rw [h1]
    refine ⟨fun h => ⟨triv k h _, triv k h _, triv k h _, triv k h _, triv k h _⟩, fun h => one k ?_⟩
    rw [← h1]; exact (dvd_abs _ _).mpr h.1
  · refine ⟨by rw [h2]; norm_num, fun k => ?_⟩
    rw [h2]
    refine ⟨fun h => ⟨triv k h _, triv k h _, triv k h _, triv k h _, triv k h _⟩, fun h => one k ?_⟩
    rw [← h2]; exact (dg _ _ _).mpr ⟨(dvd_abs _ _).mpr h.1, h.2.1⟩
  · refine ⟨by rw [h3]; norm_num, fun k => ?_⟩
    rw [h3]
    refine ⟨fun h => ⟨triv k h _, triv k h _, triv k h _, triv k h _, triv k h _⟩, fun h => one k ?_⟩
    rw [← h3]; exact (dg _ _ _).mpr ⟨(dg _ _ _).mpr ⟨(dvd_abs _ _).mpr h.1, h.2.1⟩, h.2.2.1⟩
  · refine ⟨by rw [h4]; norm_num, fun k => ?_⟩
    rw [h4]
    refine ⟨fun h => ⟨triv k h _, triv k h _, triv k h _, triv k h _, triv k h _⟩, fun h => one k ?_⟩
    rw [← h4]
    exact (dg _ _ _).mpr ⟨(dg _ _ _).mpr ⟨(dg _ _ _).mpr ⟨(dvd_abs _ _).mpr h.1, h.2.1⟩, h.2.2.1⟩, h.2.2.2.1⟩
  all_goals
    have hall : ∀ k : ℤ, k ∣ gcd (gcd (gcd (gcd |g.a| g.b) g.c) g.d) g.e ↔
        k ∣ g.a ∧ k ∣ g.b ∧ k ∣ g.c ∧ k ∣ g.d ∧ k ∣ g.e := by
      intro k
      rw [dg, dg, dg, dg, dvd_abs]
      tauto
  · refine ⟨by rw [h5]; norm_num, fun k => ?_⟩
    rw [h5]
    refine ⟨fun h => ⟨triv k h _, triv k h _, triv k h _, triv k h _, triv k h _⟩, fun h => one k ?_⟩
    rw [← h5]; exact (hall _).mpr h
  · have hne : gcd (gcd (gcd (gcd |g.a| g.b) g.c) g.d) g.e ≠ 0 := by
      intro h0
      have := (hall 0).mp (by rw [h0])
      exact hg (by simpa only [zero_dvd_iff] using this)
    simp only [← hall]
    generalize gcd (gcd (gcd (gcd |g.a| g.b) g.c) g.d) g.e = n at *
    have hmem := (Arith.Props.C07_sqdivs n hne (pd n) (hpd n hne)).2
    obtain ⟨hnil, hlast⟩ := sqdivs_last n (pd n)
    have e : (Arith.sqdivs n (pd n)).getLastD 0 = (Arith.sqdivs n (pd n)).getLast hnil := by
      rw [List.getLastD_eq_getLast?, List.getLast?_eq_some_getLast hnil]; rfl
    rw [e]
    have hl := (hmem _).mp (List.getLast_mem hnil)
    refine ⟨hl.1, fun k => ⟨fun h => (pow_dvd_pow_of_dvd h 2).trans hl.2, fun h => ?_⟩⟩
    have hk : k ≠ 0 := by
      rintro rfl
      rw [zero_pow two_ne_zero, zero_dvd_iff] at h
      exact hne h
    have := hlast |k| ((hmem _).mpr ⟨abs_pos.mpr hk, by rwa [sq_abs]⟩)
    exact (abs_dvd _ _).mp this

/-- the division by the square part of the content -/
theorem simplifyG_spec (pd : ℤ → List ℤ) (hpd : ∀ n, n ≠ 0 → IsPrimeDivisorList n (pd n)) (g : G) (hd : g.disc ≠ 0) :
    ∃ k, k ≠ 0 ∧ (∀ X Z, k ^ 2 * (simplifyG pd g).fn X Z = g.fn X Z) ∧ (simplifyG pd g).disc ≠ 0 := by
  have hg : ¬ (g.a = 0 ∧ g.b = 0 ∧ g.c = 0 ∧ g.d = 0 ∧ g.e = 0) := by
    rintro ⟨h1, h2, h3, h4, h5⟩
    apply hd
    simp [G.disc, G.II, G.JJ, h1, h2, h3, h4, h5]
  obtain ⟨h0, h⟩ := gContent_spec pd hpd g hg
  unfold simplifyG
  simp only
  split_ifs with h1
  · obtain ⟨a, b, c, d, e⟩ := (h _).mp dvd_rfl
    have hs := G.divBy_smul g (pow_ne_zero 2 h0.ne') a b c d e
    refine ⟨gContent pd g, h0.ne', fun X Z => ?_, fun hz => hd ?_⟩
    · rw [← G.fn_smul, hs]
    · rw [← hs]
      have : ∀ (k : ℤ) (g : G), (g.smul k).disc = k ^ 6 * g.disc := by
        intro k g
        simp only [G.disc, G.II, G.JJ, G.smul]; ring
      rw [this, hz, mul_zero]
  · exact ⟨1, one_ne_zero, fun X Z => by ring, hd⟩

/-! ## the map back -/

theorem reduce2_spec {x z : ℤ} (h : ¬ (x = 0 ∧ z = 0)) :
    ∃ g, 0 < g ∧ x = g * (reduce2 x z).1 ∧ z = g * (reduce2 x z).2 ∧ IsCoprime (reduce2 x z).1 (reduce2 x z).2 := by
  have hg : 0 < Int.gcd x z := Nat.pos_of_ne_zero fun h0 => h (Int.gcd_eq_zero_iff.mp h0)
  have h1 : ((Int.gcd x z : ℕ) : ℤ) ∣ x := Int.gcd_dvd_left ..
  have h2 : ((Int.gcd x z : ℕ) : ℤ) ∣ z := Int.gcd_dvd_right ..
  have hp : (0 : ℤ) < (Int.gcd x z : ℕ) := by exact_mod_cast hg
  unfold reduce2
  simp only
  split_ifs with h3
  · refine ⟨(Int.gcd x z : ℕ), hp, ?_, ?_, ?_⟩
    · simp only [gcd]
      rw [Int.mul_fdiv_cancel' h1]
    · simp only [gcd]
      rw [Int.mul_fdiv_cancel' h2]
    · simp only [gcd]
      rw [Int.fdiv_eq_ediv_of_nonneg _ hp.le, Int.fdiv_eq_ediv_of_nonneg _ hp.le, Int.isCoprime_iff_gcd_eq_one]
      exact Int.gcd_ediv_gcd_ediv_gcd hg
  · refine ⟨1, one_pos, (one_mul _).symm, (one_mul _).symm, ?_⟩
    rw [Int.isCoprime_iff_gcd_eq_one]
    simp only [gcd] at h3
    have h4 : ((Int.gcd x z : ℕ) : ℤ) = 1 := by
      rw [gt_iff_lt, not_lt] at h3
      exact le_antisymm h3 hp
    exact_mod_cast h4

theorem sq_of_coprime_mul {a b n : ℤ} (hco : IsCoprime a b) (ha : 0 ≤ a) (h : a * b = n ^ 2) : ∃ r, a = r ^ 2 := by
  rcases Int.sq_of_gcd_eq_one (Int.isCoprime_iff_gcd_eq_one.mp hco) h with ⟨r, hr⟩
  rcases hr with hr | hr
  · exact ⟨r, hr⟩
  · refine ⟨0, ?_⟩
    have : r ^ 2 = 0 := le_antisymm (by linarith) (sq_nonneg r)
    rw [hr, this]; norm_num

/-- the map back never fails -/
theorem mapBack_spec {c d1 d2 d3 : ℤ} {q1 q2 q3 Q1 Q2 Q3 : Q} (h : CParam d1 c d2 1 q1 q2 q3)
    (H : CParam q1.a q1.b q1.c d3 Q1 Q2 Q3) (h2 : d2 ≠ 0) (hD : c ^ 2 - 4 * d1 * d2 ≠ 0) (h3 : d3 ≠ 0) {m : SU}
    {x z w : ℤ} (hne : ¬ (m.m11 * x + m.m12 * z = 0 ∧ m.m21 * x + m.m22 * z = 0))
    (hw : (quarticOf q3 Q1 Q3 d3).fn (m.m11 * x + m.m12 * z) (m.m21 * x + m.m22 * z) = w ^ 2) :
    ∃ a b e, mapBack ⟨d1, c, d2⟩ q1 q3 Q1 Q3 m x z = .point a b e ∧
      b ^ 2 = d1 * a ^ 4 + c * a ^ 2 * e ^ 2 + d2 * e ^ 4 ∧ IsCoprime a e ∧ 0 ≤ a ∧ 0 ≤ b ∧ 0 ≤ e := by
  unfold mapBack
  simp only
  generalize m.m11 * x + m.m12 * z = x3 at *
  generalize m.m21 * x + m.m22 * z = z3 at *
  rw [quarticOf_fn] at hw
  -- first reduction
  obtain ⟨f, hf, fx, fz, fco⟩ := reduce2_spec hne
  generalize (reduce2 x3 z3).1 = u at *
  generalize (reduce2 x3 z3).2 = v at *
  subst fx fz
  have hw1 : f ^ 2 * (f ^ 2 * (d3 * quad q3.a q3.b q3.c (quad Q1.a Q1.b Q1.c u v) (quad Q3.a Q3.b Q3.c u v))) = w ^ 2 := by
    rw [← hw]; simp only [quad]; ring
  obtain ⟨w1, hw1⟩ := sq_of_mul_sq hf.ne' hw1
  obtain ⟨w2, hw2⟩ := sq_of_mul_sq hf.ne' hw1
  have huv : ¬ (u = 0 ∧ v = 0) := by
    rintro ⟨rfl, rfl⟩
    exact hne ⟨mul_zero _, mul_zero _⟩
  have hq1D : q1.b ^ 2 - 4 * q1.a * q1.c ≠ 0 := by
    have := h.dx
    simp only [Q.disc] at this
    rw [sq, this]
    exact mul_ne_zero (mul_ne_zero (by norm_num) h2) one_ne_zero
  have hPR := CParam.ne_zero H h3 hq1D huv
  have hid := H.ident u v
  rw [eval_eq Q1, eval_eq Q3]
  generalize quad Q1.a Q1.b Q1.c u v = P at *
  generalize quad Q3.a Q3.b Q3.c u v = R at *
  generalize quad Q2.a Q2.b Q2.c u v = V at *
  -- second reduction
  obtain ⟨k, hk, kx, kz, kco⟩ := reduce2_spec hPR
  generalize (reduce2 P R).1 = P' at *
  generalize (reduce2 P R).2 = R' at *
  subst kx kz
  have hPR' : ¬ (P' = 0 ∧ R' = 0) := by
    rintro ⟨rfl, rfl⟩
    exact hPR ⟨mul_zero _, mul_zero _⟩
  have e1 : k ^ 2 * quad q1.a q1.b q1.c P' R' = d3 * V ^ 2 := by
    rw [← hid]; simp only [quad]; ring
  have e3 : d3 * (k ^ 2 * quad q3.a q3.b q3.c P' R') = w2 ^ 2 := by
    rw [← hw2]; simp only [quad]; ring
  have hAC := CParam.ne_zero h one_ne_zero hD hPR'
  have hy := h.ident P' R'
  rw [eval_eq q1, eval_eq q3]
  generalize quad q1.a q1.b q1.c P' R' = A at *
  generalize quad q3.a q3.b q3.c P' R' = C at *
  generalize quad q2.a q2.b q2.c P' R' = B at *
  -- the product is a square
  obtain ⟨n, hn⟩ : ∃ n, A * C = n ^ 2 := by
    apply sq_of_mul_sq (pow_ne_zero 2 hk.ne') (b := V * w2)
    apply mul_left_cancel₀ h3
    linear_combination d3 * k ^ 2 * C * e1 + d3 * V ^ 2 * e3
  have habs : |A| * |C| = A * C := by rw [← abs_mul, hn]; exact abs_of_nonneg (sq_nonneg n)
  -- third reduction
  obtain ⟨g, hg, gx, gz, gco⟩ := reduce2_spec (x := |A|) (z := |C|) (by
    rw [abs_eq_zero, abs_eq_zero]; exact hAC)
  have sA := sq_abs A
  have sC := sq_abs C
  have nA := abs_nonneg A
  have nC := abs_nonneg C
  generalize (reduce2 |A| |C|).1 = a at *
  generalize (reduce2 |A| |C|).2 = e at *
  generalize |A| = A' at *
  generalize |C| = C' at *
  subst gx gz
  have a0 : 0 ≤ a := by
    by_contra hc
    have := mul_neg_of_pos_of_neg hg (not_le.mp hc)
    linarith
  have c0 : 0 ≤ e := by
    by_contra hc
    have := mul_neg_of_pos_of_neg hg (not_le.mp hc)
    linarith
  obtain ⟨n', hn'⟩ : ∃ n', a * e = n' ^ 2 := by
    apply sq_of_mul_sq hg.ne' (b := n)
    rw [← hn, ← habs]; ring
  obtain ⟨r, hr⟩ := sq_of_coprime_mul gco a0 hn'
  obtain ⟨s, hs⟩ := sq_of_coprime_mul gco.symm c0 (by rw [mul_comm]; exact hn')
  obtain ⟨t, ht⟩ : ∃ t, Q.eval ⟨d1, c, d2⟩ a e = t ^ 2 := by
    apply sq_of_mul_sq hg.ne' (b := B)
    simp only [Q.eval]
    linear_combination hy + d1 * sA + c * habs + d2 * sC
  have i1 := (Marith.Props.C12_isqrt a).mpr ⟨r, hr⟩
  have i2 := (Marith.Props.C12_isqrt e).mpr ⟨s, hs⟩
  have i3 := (Marith.Props.C12_isqrt (Q.eval ⟨d1, c, d2⟩ a e)).mpr ⟨t, ht⟩
  rw [if_pos (by rw [i1, i2, i3]; rfl)]
  have j1 := Marith.isqrt_sound _ i1
  have j2 := Marith.isqrt_sound _ i2
  have j3 := Marith.isqrt_sound _ i3
  refine ⟨_, _, _, rfl, ?_, ?_, Int.natCast_nonneg _, Int.natCast_nonneg _, Int.natCast_nonneg _⟩
  · rw [sq, ← j3]
    simp only [Q.eval]
    generalize ((isqrt a).2 : ℤ) = α at *
    generalize ((isqrt e).2 : ℤ) = β at *
    rw [j1, j2]; ring
  · have : IsCoprime (((isqrt a).2 : ℤ) * (isqrt a).2) (((isqrt e).2 : ℤ) * (isqrt e).2) := by rw [← j1, ← j2]; exact gco
    exact (this.of_mul_left_left).of_mul_right_left

end Eclib.Desc2
