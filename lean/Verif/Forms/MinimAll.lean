import Verif.Forms.MinimThree
import Verif.Legendre.Places
import Mathlib.NumberTheory.Padics.RingHoms

/-! # C25: `minim_p` for every prime, and `minim_all` -/

namespace Eclib.Forms

open Eclib.Forms.Spec Props
open Marith (XGcd mod invmod div val)
open Desc2 (KPoint)

/-! ## solubility -/

/-- a `p`-adic point with one coordinate 1 and the other integral gives a point modulo `p⁴` -/
theorem solMod_int {p : ℕ} [hp : Fact p.Prime] {g : G} {x y z : ℤ_[p]} (hu : IsUnit x ∨ IsUnit z)
    (h : y ^ 2 = g.a * x ^ 4 + g.b * x ^ 3 * z + g.c * x ^ 2 * z ^ 2 + g.d * x * z ^ 3 + g.e * z ^ 4) :
    SolMod p g := by
  have : NeZero (p ^ 4) := ⟨pow_ne_zero 4 hp.out.ne_zero⟩
  let φ := PadicInt.toZModPow (p := p) 4
  have lift : ∀ u : ZMod (p ^ 4), (((u.val : ℕ) : ℤ) : ZMod (p ^ 4)) = u := fun u => by
    rw [Int.cast_natCast]; exact ZMod.natCast_zmod_val u
  have unit : ∀ u : ℤ_[p], IsUnit u → ¬ (p : ℤ) ∣ (((φ u).val : ℕ) : ℤ) := by
    intro u hu hd
    have h1 : IsUnit (φ u) := hu.map φ
    rw [← ZMod.natCast_zmod_val (φ u), ZMod.isUnit_iff_coprime] at h1
    have h2 : p ∣ (φ u).val := by exact_mod_cast hd
    have h3 := Nat.Coprime.eq_one_of_dvd (Nat.Coprime.coprime_dvd_left h2 h1)
      (dvd_pow_self p (by norm_num))
    exact hp.out.one_lt.ne' h3
  refine ⟨((φ x).val : ℕ), ((φ y).val : ℕ), ((φ z).val : ℕ), ?_, ?_⟩
  · rintro ⟨h1, h2⟩
    rcases hu with hu | hu
    · exact unit x hu h1
    · exact unit z hu h2
  · have h1 := congrArg φ h
    simp only [map_pow, map_add, map_mul, map_intCast] at h1
    have h2 : ((((((φ y).val : ℕ) : ℤ) ^ 2 - g.fn ((φ x).val : ℕ) ((φ z).val : ℕ)) : ℤ) :
        ZMod (p ^ 4)) = 0 := by
      simp only [G.fn, quart]
      push_cast
      have lift' : ∀ u : ZMod (p ^ 4), ((u.val : ℕ) : ZMod (p ^ 4)) = u := ZMod.natCast_zmod_val
      simp only [lift']
      rw [h1]; ring
    have := (ZMod.intCast_zmod_eq_zero_iff_dvd _ _).mp h2
    exact_mod_cast this

theorem SolMod.of_point {p : ℕ} [hp : Fact p.Prime] {g : G} (h : KPoint g ℚ_[p]) : SolMod p g := by
  obtain ⟨x, y, z, h0, h1⟩ := h
  have int1 : ∀ n : ℤ, ‖(n : ℚ_[p])‖ ≤ 1 := fun n => by
    have := PadicInt.norm_le_one (p := p) (n : ℤ_[p])
    rw [PadicInt.norm_def] at this
    exact_mod_cast this
  -- the case of an integral point
  have key : ∀ x y z : ℚ_[p], ‖x‖ ≤ 1 → ‖z‖ ≤ 1 → (x = 1 ∨ z = 1) →
      y ^ 2 = g.a * x ^ 4 + g.b * x ^ 3 * z + g.c * x ^ 2 * z ^ 2 + g.d * x * z ^ 3 + g.e * z ^ 4 →
      SolMod p g := by
    intro x y z hx hz h1 h
    have hy : ‖y‖ ≤ 1 := by
      let X : ℤ_[p] := ⟨x, hx⟩
      let Z : ℤ_[p] := ⟨z, hz⟩
      have e : ((g.a * X ^ 4 + g.b * X ^ 3 * Z + g.c * X ^ 2 * Z ^ 2 + g.d * X * Z ^ 3 + g.e * Z ^ 4 :
          ℤ_[p]) : ℚ_[p]) = y ^ 2 := by
        rw [h]; push_cast; rfl
      have h2 : ‖y ^ 2‖ ≤ 1 := by
        rw [← e]; exact PadicInt.norm_le_one _
      rw [norm_pow] at h2
      by_contra hlt
      push Not at hlt
      have : 1 < ‖y‖ ^ 2 := by nlinarith
      linarith
    refine solMod_int (x := ⟨x, hx⟩) (y := ⟨y, hy⟩) (z := ⟨z, hz⟩) ?_ ?_
    · rcases h1 with rfl | rfl
      · left
        exact (isUnit_one : IsUnit (1 : ℤ_[p]))
      · right
        exact (isUnit_one : IsUnit (1 : ℤ_[p]))
    · apply PadicInt.ext
      push_cast
      exact h
  by_cases hle : ‖z‖ ≤ ‖x‖
  · have hx : x ≠ 0 := by
      rintro rfl
      rw [norm_zero] at hle
      exact h0 ⟨rfl, norm_le_zero_iff.mp hle⟩
    refine key 1 (y / x ^ 2) (z / x) (by simp) ?_ (Or.inl rfl) ?_
    · rw [norm_div]
      exact div_le_one_of_le₀ hle (norm_nonneg _)
    · rw [div_pow, h1]
      field_simp
  · push Not at hle
    have hz : z ≠ 0 := by
      rintro rfl
      rw [norm_zero] at hle
      exact absurd hle (not_lt.mpr (norm_nonneg _))
    refine key (x / z) (y / z ^ 2) 1 ?_ (by simp) (Or.inr rfl) ?_
    · rw [norm_div]
      exact div_le_one_of_le₀ hle.le (norm_nonneg _)
    · rw [div_pow, h1]
      field_simp

/-- points are carried over by a substitution -/
theorem GVia.point {t : M2} {u : ℤ} {s0 s : G × SU} (h : GVia t u s0 s) (ht : t.det ≠ 0) (hu : u ≠ 0)
    {K : Type} [Field K] [CharZero K] (hp : KPoint s0.1 K) : KPoint s.1 K := by
  refine Desc2.KPoint.of_tr (m := ⟨ofM t, u⟩) hu ?_ ?_ hp
  · rw [Matrix.det_fin_two] at ht; exact ht
  · intro X Z
    have := h.2.2 X Z
    simpa [act, G.fn, ofM] using this

/-! ## `minim_p` -/

/-- the condition on the invariants under which `minim_all` calls `minim_p` for a locally soluble quartic -/
def NonminSol (p : ℕ) (I J : ℤ) : Prop :=
  (p ≠ 3 ∧ (p : ℤ) ^ 4 ∣ I ∧ (p : ℤ) ^ 6 ∣ J) ∨
  (p = 3 ∧ ((3 ^ 5 ∣ I ∧ 3 ^ 9 ∣ J) ∨ (3 ^ 4 ∣ I ∧ 3 ^ 6 ∣ J ∧ ¬ 3 ^ 7 ∣ J ∧ 3 ^ 15 ∣ 4 * I ^ 3 - J ^ 2)))

theorem NonminSol.cond3 {I J : ℤ} (h : NonminSol 3 I J) :
    ∃ i j, I = 81 * i ∧ J = 729 * j ∧ Cond3 i j := by
  rcases h with ⟨h, -⟩ | ⟨-, ⟨⟨i, hi⟩, ⟨j, hj⟩⟩ | ⟨⟨i, hi⟩, ⟨j, hj⟩, h7, ⟨k, hk⟩⟩⟩
  · exact absurd rfl h
  · exact ⟨3 * i, 27 * j, by linarith, by linarith, Or.inl ⟨Dvd.intro _ rfl, Dvd.intro _ rfl⟩⟩
  · refine ⟨i, j, by linarith, by linarith, Or.inr ⟨?_, ⟨k, ?_⟩⟩⟩
    · rintro ⟨q, hq⟩
      exact h7 ⟨q, by rw [hj, hq]; ring⟩
    · rw [hi, hj] at hk
      apply mul_left_cancel₀ (show (3 ^ 12 : ℤ) ≠ 0 by norm_num)
      linear_combination hk

theorem minimP_step (X : XGcd) (p : ℕ) (hp : p.Prime) (g : G) (m : SU) (hn : NonminSol p g.II g.JJ)
    (hs : SolMod p g ∨ ((p : ℤ) ^ 8 ∣ g.II ∧ (p : ℤ) ^ 12 ∣ g.JJ)) :
    StepOK p (g, m) (minimP X g p m) ∨ (p = 2 ∧ StepNo (g, m) (minimP X g p m)) := by
  have : Fact p.Prime := ⟨hp⟩
  have hp0 : (p : ℤ) ≠ 0 := by exact_mod_cast hp.ne_zero
  have hpp : (p : ℤ) * p ≠ 0 := mul_ne_zero hp0 hp0
  unfold minimP
  split_ifs with h1 h2
  · left
    rw [divAll_iff hpp] at h1
    obtain ⟨da, db, dc, dd, de⟩ := h1
    have hg := G.divBy_smul g hpp da db dc dd de
    refine ⟨rfl, 1, p, by simp, by simp, by simp [SU.uScale], rfl, ?_⟩
    intro x z
    rw [act_one]
    dsimp only
    have := G.fn_smul ((p : ℤ) * p) (g.divBy (p * p)) x z
    rw [hg] at this
    rw [this]; ring
  all_goals
    have h2p := hp.two_le
    by_cases p2 : p = 2
    · subst p2
      rcases hn with ⟨-, hI, hJ⟩ | ⟨h, -⟩
      · simp only [true_and]
        first
          | exact minimAll_two X g m (by simpa using h1) h2 (by exact_mod_cast hI) (by exact_mod_cast hJ)
          | exact minimNot_two X g m (by simpa using h2) (by exact_mod_cast hI) (by exact_mod_cast hJ)
      · exact absurd h (by norm_num)
    left
    by_cases p3 : p = 3
    · subst p3
      obtain ⟨i, j, hi, hj, hc⟩ := hn.cond3
      first
        | exact minimNot_three X g m (by simpa using h2) hi hj hc
        | exact minimAll_three X g m (by simpa using h1) h2 hi hj hc (by
            rcases hs with hs | ⟨⟨k, hk⟩, ⟨l, hl⟩⟩
            · exact Or.inl hs
            · right
              push_cast at hk hl
              exact ⟨⟨9 * k, by linarith⟩, ⟨27 * l, by linarith⟩⟩)
    have h5 : 5 ≤ p := by
      by_contra hlt
      have : p = 4 := by omega
      subst this
      exact absurd hp (by decide)
    rcases hn with ⟨-, hI, hJ⟩ | ⟨h, -⟩
    · first
        | exact minimNot_ok h5 X g m (by simpa using h2) hI hJ
        | exact minimAll_ok h5 X g m (by simpa using h1) h2 hI hJ (hs.imp id (fun h =>
            ⟨dvd_trans (pow_dvd_pow _ (by norm_num)) h.1, dvd_trans (pow_dvd_pow _ (by norm_num)) h.2⟩))
    · exact absurd h p3

/-! ## the loop of `minim_all` -/

open Eclib.Spec (ExactPower)

theorem divTimes_eq {p : ℤ} (hp : p ≠ 0) (n : ℕ) (x : ℤ) : divTimes p n (p ^ n * x) = x := by
  induction n with
  | zero => simp [divTimes]
  | succ n ih =>
    rw [divTimes, show p ^ (n + 1) * x = p * (p ^ n * x) by ring, Int.mul_fdiv_cancel_left _ hp]
    exact ih

/-- the valuations kept by `minim_all` -/
structure Vals (p : ℕ) (I J vpi vpj vpd : ℤ) : Prop where
  i : I ≠ 0 → ∃ n : ℕ, vpi = n ∧ ExactPower p I n
  j : J ≠ 0 → ∃ n : ℕ, vpj = n ∧ ExactPower p J n
  j0 : J = 0 → vpj % 6 = 4
  d : p = 3 → ∃ n : ℕ, vpd = n ∧ ExactPower 3 (4 * I ^ 3 - J ^ 2) n

theorem exact_dvd {p I v : ℤ} (h : I ≠ 0 → ∃ n : ℕ, v = n ∧ ExactPower p I n) {k : ℕ} (hk : (k : ℤ) ≤ v) :
    p ^ k ∣ I := by
  by_cases hI : I = 0
  · rw [hI]; exact dvd_zero _
  · obtain ⟨n, rfl, h1, -⟩ := h hI
    exact dvd_trans (pow_dvd_pow p (by omega)) h1

theorem exact_le {p I v : ℤ} (hI : I ≠ 0) (h : I ≠ 0 → ∃ n : ℕ, v = n ∧ ExactPower p I n) {k : ℕ}
    (hk : p ^ k ∣ I) : (k : ℤ) ≤ v := by
  obtain ⟨n, rfl, -, h2⟩ := h hI
  by_contra hlt
  exact h2 (dvd_trans (pow_dvd_pow p (by omega)) hk)

theorem exact_div {p I : ℤ} (hp : p ≠ 0) {k n : ℕ} (h : ExactPower p (p ^ k * I) n) (_ : I ≠ 0) :
    ∃ n' : ℕ, (n : ℤ) - k = n' ∧ ExactPower p I n' := by
  obtain ⟨h1, h2⟩ := h
  have hkn : k ≤ n := by
    by_contra hlt
    exact h2 (dvd_trans (pow_dvd_pow p (by omega)) (Dvd.intro _ rfl))
  obtain ⟨n', rfl⟩ := Nat.exists_eq_add_of_le hkn
  refine ⟨n', by push_cast; ring, ?_, ?_⟩
  · rw [pow_add] at h1
    exact (mul_dvd_mul_iff_left (pow_ne_zero k hp)).mp h1
  · intro h
    apply h2
    rw [add_assoc, pow_add]
    exact mul_dvd_mul_left _ h

theorem Vals.step {p : ℕ} (hp : p.Prime) {I J vpi vpj vpd : ℤ}
    (hD : 4 * ((p : ℤ) ^ 4 * I) ^ 3 - ((p : ℤ) ^ 6 * J) ^ 2 ≠ 0)
    (h : Vals p ((p : ℤ) ^ 4 * I) ((p : ℤ) ^ 6 * J) vpi vpj vpd) :
    Vals p I J (vpi - 4) (vpj - 6) (if smallP p = 3 then vpd - 12 else vpd) := by
  have hp0 : (p : ℤ) ≠ 0 := by exact_mod_cast hp.ne_zero
  refine ⟨?_, ?_, ?_, ?_⟩
  · intro hI
    obtain ⟨n, rfl, hn⟩ := h.i (mul_ne_zero (pow_ne_zero 4 hp0) hI)
    exact exact_div hp0 hn hI
  · intro hJ
    obtain ⟨n, rfl, hn⟩ := h.j (mul_ne_zero (pow_ne_zero 6 hp0) hJ)
    exact exact_div hp0 hn hJ
  · intro hJ
    have := h.j0 (by rw [hJ, mul_zero])
    omega
  · rintro rfl
    obtain ⟨n, rfl, hn⟩ := h.d rfl
    have e : 4 * ((3 : ℤ) ^ 4 * I) ^ 3 - ((3 : ℤ) ^ 6 * J) ^ 2 = 3 ^ 12 * (4 * I ^ 3 - J ^ 2) := by ring
    simp only [Nat.cast_ofNat] at hn hD
    rw [e] at hn hD
    have := exact_div (by norm_num) hn (right_ne_zero_of_mul hD)
    simpa [smallP] using this

theorem val_exact {p n : ℤ} (hp : 2 ≤ p) (hn : n ≠ 0) : ExactPower p n (val p n) :=
  Marith.val_spec p n (by rw [abs_of_nonneg (by omega)]; exact hp) hn

theorem Vals.start {p : ℕ} (hp : p.Prime) (g : G) (m : SU) {I J : ℤ} (hD : 4 * I ^ 3 - J ^ 2 ≠ 0) :
    Vals p I J (minimStart p g m I J).vpi (minimStart p g m I J).vpj (minimStart p g m I J).vpd := by
  have h2 : (2 : ℤ) ≤ p := by exact_mod_cast hp.two_le
  refine ⟨?_, ?_, ?_, ?_⟩
  · intro hI
    exact ⟨val p I, by simp [minimStart, hI], val_exact h2 hI⟩
  · intro hJ
    exact ⟨val p J, by simp [minimStart, hJ], val_exact h2 hJ⟩
  · intro hJ
    simp [minimStart, hJ]
  · rintro rfl
    have e : 4 * I * (I * I) - J * J = 4 * I ^ 3 - J ^ 2 := by ring
    refine ⟨val 3 (4 * I ^ 3 - J ^ 2), ?_, val_exact (by norm_num) hD⟩
    simp [minimStart, e]

/-- `is_nonmin` is right about the invariants: when it says yes, the conditions hold -/
theorem nonmin_sound {p : ℕ} {I J vpi vpj vpd : ℤ} (h : Vals p I J vpi vpj vpd) {ls : Bool}
    (hn : isNonmin (smallP p) vpi vpj vpd ls = true) :
    NonminSol p I J ∧ (ls = false → (p : ℤ) ^ 8 ∣ I ∧ (p : ℤ) ^ 12 ∣ J) := by
  cases ls with
  | false =>
    simp only [isNonmin, Bool.not_false, if_true, Bool.and_eq_true, decide_eq_true_eq] at hn
    have h8 : (p : ℤ) ^ 8 ∣ I := exact_dvd h.i (by push_cast; omega)
    have h12 : (p : ℤ) ^ 12 ∣ J := exact_dvd h.j (by push_cast; omega)
    refine ⟨?_, fun _ => ⟨h8, h12⟩⟩
    by_cases p3 : p = 3
    · subst p3
      exact Or.inr ⟨rfl, Or.inl ⟨dvd_trans (pow_dvd_pow _ (by norm_num)) h8,
        dvd_trans (pow_dvd_pow _ (by norm_num)) h12⟩⟩
    · exact Or.inl ⟨p3, dvd_trans (pow_dvd_pow _ (by norm_num)) h8,
        dvd_trans (pow_dvd_pow _ (by norm_num)) h12⟩
  | true =>
    refine ⟨?_, by simp⟩
    by_cases p3 : p = 3
    · subst p3
      right
      refine ⟨rfl, ?_⟩
      simp only [isNonmin, smallP, Nat.cast_ofNat, Bool.not_true, Bool.false_eq_true, if_false,
        show ¬ (3 : ℤ) = 2 by norm_num, if_true, Bool.or_eq_true, Bool.and_eq_true,
        decide_eq_true_eq] at hn
      have hi := h.i
      have hj := h.j
      simp only [Nat.cast_ofNat] at hi hj
      rcases hn with hn | ⟨⟨hn1, hn2⟩, hn3⟩
      · exact Or.inl ⟨exact_dvd hi (by push_cast; omega), exact_dvd hj (by push_cast; omega)⟩
      · right
        refine ⟨exact_dvd hi (by push_cast; omega), exact_dvd hj (by push_cast; omega), ?_, ?_⟩
        · have hJ : J ≠ 0 := fun h0 => by
            have := h.j0 h0
            omega
          obtain ⟨n, e, -, h2⟩ := hj hJ
          have : n = 6 := by omega
          subst this
          exact h2
        · obtain ⟨n, e, h1, -⟩ := h.d rfl
          exact dvd_trans (pow_dvd_pow _ (by omega)) h1
    · left
      have hsp : ¬ smallP p = 3 := by
        unfold smallP
        split_ifs <;> omega
      simp only [isNonmin, hsp, Bool.not_true, Bool.false_eq_true, if_false, Bool.and_eq_true,
        decide_eq_true_eq] at hn
      exact ⟨p3, exact_dvd h.i (by push_cast; omega), exact_dvd h.j (by push_cast; omega)⟩

/-- the condition tested by `minim_all`, in terms of the invariants -/
def Nonmin (ls : Bool) (p : ℕ) (I J : ℤ) : Prop :=
  if ls then NonminSol p I J else (p : ℤ) ^ 8 ∣ I ∧ (p : ℤ) ^ 12 ∣ J

/-- … and when it says no, they do not -/
theorem nonmin_complete {p : ℕ} {I J vpi vpj vpd : ℤ} (h : Vals p I J vpi vpj vpd)
    (hI : I ≠ 0) (hJ : J ≠ 0) (hD : 4 * I ^ 3 - J ^ 2 ≠ 0) {ls : Bool}
    (hn : isNonmin (smallP p) vpi vpj vpd ls = false) : ¬ Nonmin ls p I J := by
  intro hN
  rw [Bool.eq_false_iff] at hn
  apply hn
  cases ls with
  | false =>
    simp only [Nonmin, Bool.false_eq_true, if_false] at hN
    have h1 := exact_le hI h.i hN.1
    have h2 := exact_le hJ h.j hN.2
    push_cast at h1 h2
    simp only [isNonmin, Bool.not_false, if_true, Bool.and_eq_true, decide_eq_true_eq]
    omega
  | true =>
    simp only [Nonmin, if_true] at hN
    rcases hN with ⟨p3, h4, h6⟩ | ⟨rfl, hN⟩
    · have hsp : ¬ smallP p = 3 := by
        unfold smallP
        split_ifs <;> omega
      have h1 := exact_le hI h.i h4
      have h2 := exact_le hJ h.j h6
      push_cast at h1 h2
      simp only [isNonmin, hsp, Bool.not_true, Bool.false_eq_true, if_false, Bool.and_eq_true,
        decide_eq_true_eq]
      omega
    · have hi := h.i
      have hj := h.j
      simp only [Nat.cast_ofNat] at hi hj
      simp only [isNonmin, smallP, Nat.cast_ofNat, Bool.not_true, Bool.false_eq_true, if_false,
        show ¬ (3 : ℤ) = 2 by norm_num, if_true, Bool.or_eq_true, Bool.and_eq_true,
        decide_eq_true_eq]
      rcases hN with ⟨h5, h9⟩ | ⟨h4, h6, h7, h15⟩
      · have h1 := exact_le hI hi h5
        have h2 := exact_le hJ hj h9
        push_cast at h1 h2
        left
        omega
      · right
        have h1 := exact_le hI hi h4
        have h2 := exact_le hJ hj h6
        have h3 := exact_le hD (fun _ => h.d rfl) h15
        push_cast at h1 h2 h3
        obtain ⟨n, e, hn1, -⟩ := hj hJ
        have hn6 : n ≤ 6 := by
          by_contra hlt
          exact h7 (dvd_trans (pow_dvd_pow _ (by omega)) hn1)
        obtain ⟨k, e', hk1, -⟩ := hi hI
        have hk4 : k ≤ 4 := by
          by_contra hlt
          apply h7
          obtain ⟨q, hq⟩ := dvd_trans (pow_dvd_pow (3 : ℤ) (show 5 ≤ k by omega)) hk1
          obtain ⟨r, hr⟩ := h15
          have h14 : (3 : ℤ) ^ 14 ∣ J ^ 2 := ⟨12 * q ^ 3 - 3 * r, by rw [hq] at hr; linarith⟩
          rw [show (3 : ℤ) ^ 14 = (3 ^ 7) ^ 2 by norm_num] at h14
          exact (Int.pow_dvd_pow_iff (by norm_num)).mp h14
        omega

theorem Nonmin.mono {ls : Bool} {p : ℕ} {I J k : ℤ} (h : Nonmin ls p I J) :
    Nonmin ls p (k ^ 4 * I) (k ^ 6 * J) := by
  cases ls with
  | false =>
    simp only [Nonmin, Bool.false_eq_true, if_false] at h ⊢
    exact ⟨Dvd.dvd.mul_left h.1 _, Dvd.dvd.mul_left h.2 _⟩
  | true =>
    simp only [Nonmin, if_true] at h ⊢
    rcases h with ⟨p3, h4, h6⟩ | ⟨rfl, ⟨h5, h9⟩ | ⟨h4, h6, h7, h15⟩⟩
    · exact Or.inl ⟨p3, Dvd.dvd.mul_left h4 _, Dvd.dvd.mul_left h6 _⟩
    · exact Or.inr ⟨rfl, Or.inl ⟨Dvd.dvd.mul_left h5 _, Dvd.dvd.mul_left h9 _⟩⟩
    · right
      refine ⟨rfl, ?_⟩
      by_cases h3 : (3 : ℤ) ∣ k
      · left
        obtain ⟨c, rfl⟩ := h3
        obtain ⟨i, rfl⟩ := h4
        obtain ⟨j, rfl⟩ := h6
        exact ⟨⟨c ^ 4 * 27 * i, by ring⟩, ⟨c ^ 6 * 27 * j, by ring⟩⟩
      · right
        refine ⟨Dvd.dvd.mul_left h4 _, Dvd.dvd.mul_left h6 _, ?_, ?_⟩
        · intro h
          apply h7
          refine IsCoprime.dvd_of_dvd_mul_left (IsCoprime.pow ?_) h
          exact (Int.prime_three.coprime_iff_not_dvd).mpr h3
        · obtain ⟨q, hq⟩ := h15
          exact ⟨k ^ 12 * q, by linear_combination k ^ 12 * hq⟩

/-- `s` comes from `s0` by a change of variables that divides the invariants by `k⁴` and `k⁶`: the
matrix is multiplied by an integer matrix `t`, and the scale by `k * det t` -/
def Moved (k : ℤ) (s0 s : G × SU) : Prop := ∃ t u, t.det ≠ 0 ∧ u = k * t.det ∧ GVia t u s0 s

theorem Moved.refl (s : G × SU) : Moved 1 s s := ⟨1, 1, by simp, by simp, GVia.refl s⟩

theorem Moved.trans {k l : ℤ} {r s w : G × SU} (h1 : Moved k r s) (h2 : Moved l s w) : Moved (k * l) r w := by
  obtain ⟨t, u, a1, a2, a3⟩ := h1
  obtain ⟨t', u', b1, b2, b3⟩ := h2
  refine ⟨t * t', u * u', by rw [Matrix.det_mul]; exact mul_ne_zero a1 b1, ?_, a3.trans b3⟩
  rw [Matrix.det_mul, a2, b2]; ring

theorem Moved.inv {k : ℤ} {s0 s : G × SU} (h : Moved k s0 s) :
    k ^ 4 * s.1.II = s0.1.II ∧ k ^ 6 * s.1.JJ = s0.1.JJ := by
  obtain ⟨t, u, h0, hu, hv⟩ := h
  have := StepOK.inv (p := k) (s0 := s0) (r := (s.1, s.2, true)) ⟨rfl, t, u, h0, hu, hv⟩
  exact this

theorem Moved.disc {k : ℤ} {s0 s : G × SU} (h : Moved k s0 s) (hD : s0.1.disc ≠ 0) : s.1.disc ≠ 0 := by
  obtain ⟨i, j⟩ := h.inv
  intro h0
  apply hD
  unfold G.disc at h0 ⊢
  rw [← i, ← j]
  linear_combination k ^ 12 * h0

theorem Moved.point {k : ℤ} {s0 s : G × SU} (h : Moved k s0 s) (hk : k ≠ 0) {K : Type} [Field K]
    [CharZero K] (hp : KPoint s0.1 K) : KPoint s.1 K := by
  obtain ⟨t, u, h0, hu, hv⟩ := h
  exact hv.point h0 (hu ▸ mul_ne_zero hk h0) hp

theorem Moved.nonmin {k : ℤ} {s0 s : G × SU} (h : Moved k s0 s) {p : ℕ} (hn : NonminSol p s.1.II s.1.JJ) :
    NonminSol p s0.1.II s0.1.JJ := by
  obtain ⟨i, j⟩ := h.inv
  rw [← i, ← j]
  exact Nonmin.mono (ls := true) hn

theorem disc_eq (g : G) : 4 * g.II ^ 3 - g.JJ ^ 2 = g.disc := by unfold G.disc; ring

/-- the loop `while(nonmin)` -/
theorem minimLoop_ok (X : XGcd) (p : ℕ) [hp : Fact p.Prime] (ls : Bool) : ∀ (n : ℕ) (s : MSt),
    s.I = s.g.II → s.J = s.g.JJ → s.g.disc ≠ 0 →
    (ls = true → NonminSol p s.g.II s.g.JJ → KPoint s.g ℚ_[p]) →
    Vals p s.I s.J s.vpi s.vpj s.vpd →
    ∀ s', s' = minimLoop X p (smallP p) ls n s →
    s'.I = s'.g.II ∧ s'.J = s'.g.JJ ∧ Vals p s'.I s'.J s'.vpi s'.vpj s'.vpd ∧
      (∃ e : ℕ, Moved ((p : ℤ) ^ e) (s.g, s.m) (s'.g, s'.m)) ∧
      (s.vpi ≤ n → p ≠ 2 → isNonmin (smallP p) s'.vpi s'.vpj s'.vpd ls = false)
  | 0, s, hI, hJ, _, _, hv, s', e => by
    subst e
    refine ⟨hI, hJ, hv, ⟨0, by simpa using Moved.refl _⟩, fun h _ => ?_⟩
    push_cast at h
    rw [Bool.eq_false_iff]
    intro hn
    unfold isNonmin at hn
    split_ifs at hn <;> simp only [Bool.or_eq_true, Bool.and_eq_true, decide_eq_true_eq] at hn <;> omega
  | n + 1, s, hI, hJ, hD, hs, hv, s', e => by
    have hp0 : (p : ℤ) ≠ 0 := by exact_mod_cast hp.out.ne_zero
    rw [minimLoop] at e
    by_cases hn : isNonmin (smallP p) s.vpi s.vpj s.vpd ls = true
    · rw [if_pos hn] at e
      dsimp only at e
      obtain ⟨hN, hN8⟩ := nonmin_sound hv hn
      rw [hI, hJ] at hN hN8
      have hsol : SolMod p s.g ∨ ((p : ℤ) ^ 8 ∣ s.g.II ∧ (p : ℤ) ^ 12 ∣ s.g.JJ) := by
        cases ls with
        | false => exact Or.inr (hN8 rfl)
        | true => exact Or.inl (SolMod.of_point (hs rfl hN))
      rcases minimP_step X p hp.out s.g s.m hN hsol with hok | ⟨rfl, hno⟩
      · rw [if_pos hok.1] at e
        set r := minimP X s.g p s.m with hr
        obtain ⟨i, j⟩ := hok.inv
        have hmv : Moved p (s.g, s.m) (r.1, r.2.1) := hok.2
        have e4 : divTimes p 4 s.I = r.1.II := by rw [hI, ← i]; exact divTimes_eq hp0 4 _
        have e6 : divTimes p 6 s.J = r.1.JJ := by rw [hJ, ← j]; exact divTimes_eq hp0 6 _
        have hv' : Vals p r.1.II r.1.JJ (s.vpi - 4) (s.vpj - 6)
            (if smallP p = 3 then s.vpd - 12 else s.vpd) := by
          apply Vals.step hp.out
          · rw [i, j, disc_eq]; exact hD
          · rw [i, j, ← hI, ← hJ]; exact hv
        have := minimLoop_ok X p ls n (s.next p (smallP p) r) e4 e6 (hmv.disc hD)
          (fun h hn => hmv.point hp0 (hs h (hmv.nonmin hn)))
          (by rw [show (s.next p (smallP p) r).I = r.1.II from e4,
            show (s.next p (smallP p) r).J = r.1.JJ from e6]; exact hv') s' e
        obtain ⟨a, b, c, ⟨k, d⟩, f⟩ := this
        refine ⟨a, b, c, ⟨k + 1, ?_⟩, fun h h2 => f ?_ h2⟩
        · rw [pow_succ, mul_comm]
          exact hmv.trans d
        · simp only [MSt.next]
          push_cast at h ⊢
          omega
      · rw [if_neg (by rw [hno.1]; simp)] at e
        obtain ⟨-, t, ht, hg⟩ := hno
        obtain ⟨i, j⟩ := hg.invs ht
        subst e
        refine ⟨hI.trans i.symm, hJ.trans j.symm, hv, ⟨0, t, 1, by rw [ht]; exact one_ne_zero, by simp [ht],
          hg⟩, fun _ h => absurd rfl h⟩
    · rw [if_neg hn] at e
      subst e
      exact ⟨hI, hJ, hv, ⟨0, by simpa using Moved.refl _⟩, fun _ _ => by simpa using hn⟩

theorem minimAllP_ok (X : XGcd) (ls : Bool) : ∀ (ps : List ℕ) (g : G) (m : SU),
    (∀ p ∈ ps, p.Prime) → g.disc ≠ 0 →
    (ls = true → ∀ p ∈ ps, ∀ [Fact p.Prime], NonminSol p g.II g.JJ → KPoint g ℚ_[p]) →
    ∀ r, r = minimAllP X ls (ps.map (fun p : ℕ => (p : ℤ))) g m g.II g.JJ →
    r.2.2.1 = r.1.II ∧ r.2.2.2.1 = r.1.JJ ∧ r.2.2.2.2 = [] ∧
      (∃ k : ℕ, k ≠ 0 ∧ (∀ q : ℕ, q.Prime → q ∣ k → q ∈ ps) ∧ Moved k (g, m) (r.1, r.2.1)) ∧
      (g.II ≠ 0 → g.JJ ≠ 0 → ∀ p ∈ ps, p ≠ 2 → ¬ Nonmin ls p r.1.II r.1.JJ)
  | [], g, m, _, _, _, r, e => by
    subst e
    exact ⟨rfl, rfl, rfl, ⟨1, one_ne_zero, fun q hq h => absurd (Nat.dvd_one.mp h) hq.ne_one,
      by rw [Nat.cast_one]; exact Moved.refl (g, m)⟩, fun _ _ p hp => by simp at hp⟩
  | p :: ps, g, m, hps, hD, hs, r, e => by
    have hp : p.Prime := hps p (by simp)
    have : Fact p.Prime := ⟨hp⟩
    have hp0 : (p : ℤ) ≠ 0 := by exact_mod_cast hp.ne_zero
    have hps' : ∀ q ∈ ps, q.Prime := fun q hq => hps q (List.mem_cons_of_mem _ hq)
    have hD' : 4 * g.II ^ 3 - g.JJ ^ 2 ≠ 0 := by rw [disc_eq]; exact hD
    have hv := Vals.start hp g m hD'
    rw [List.map_cons, minimAllP] at e
    dsimp only at e
    by_cases hn : isNonmin (smallP p) (minimStart p g m g.II g.JJ).vpi (minimStart p g m g.II g.JJ).vpj
        (minimStart p g m g.II g.JJ).vpd ls = true
    · rw [if_pos hn] at e
      generalize hs' : minimLoop X p (smallP p) ls (minimStart p g m g.II g.JJ).vpi.toNat
        (minimStart p g m g.II g.JJ) = s' at e
      obtain ⟨a, b, c, ⟨k, d⟩, f⟩ := minimLoop_ok X p ls _ (minimStart p g m g.II g.JJ) rfl rfl hD
        (fun h => hs h p (by simp)) hv s' hs'.symm
      have d : Moved ((p : ℤ) ^ k) (g, m) (s'.g, s'.m) := d
      rw [if_neg (by rw [a, b]; simp), a, b] at e
      have hDs : s'.g.disc ≠ 0 := d.disc hD
      obtain ⟨i, j⟩ := d.inv
      dsimp only at i j
      obtain ⟨a', b', c', ⟨l, l0, hl, d'⟩, f'⟩ := minimAllP_ok X ls ps s'.g s'.m hps' hDs
        (fun h q hq _ hn => d.point (pow_ne_zero k hp0) (hs h q (List.mem_cons_of_mem _ hq) (d.nonmin hn))) r e
      refine ⟨a', b', c', ⟨p ^ k * l, mul_ne_zero (pow_ne_zero k hp.ne_zero) l0, ?_, ?_⟩, ?_⟩
      · intro q hq h
        rcases (Nat.Prime.dvd_mul hq).mp h with h | h
        · rw [(Nat.prime_dvd_prime_iff_eq hq hp).mp (hq.dvd_of_dvd_pow h)]; simp
        · exact List.mem_cons_of_mem _ (hl q hq h)
      · push_cast
        exact d.trans d'
      · intro hI hJ
        have hI' : s'.g.II ≠ 0 := fun h => hI (by rw [← i, h, mul_zero])
        have hJ' : s'.g.JJ ≠ 0 := fun h => hJ (by rw [← j, h, mul_zero])
        intro q hq q2
        rcases List.mem_cons.mp hq with rfl | hq
        · intro hN
          have h1 := f (Int.self_le_toNat _) q2
          refine nonmin_complete c (by rw [a]; exact hI') (by rw [b]; exact hJ')
            (by rw [a, b, disc_eq]; exact hDs) h1 ?_
          obtain ⟨i', j'⟩ := d'.inv
          dsimp only at i' j'
          rw [a, b, ← i', ← j']
          exact hN.mono
        · exact f' hI' hJ' q hq q2
    · rw [if_neg hn] at e
      obtain ⟨a', b', c', ⟨l, l0, hl, d'⟩, f'⟩ := minimAllP_ok X ls ps g m hps' hD
        (fun h q hq _ => hs h q (List.mem_cons_of_mem _ hq)) r e
      refine ⟨a', b', c', ⟨l, l0, fun q hq h => List.mem_cons_of_mem _ (hl q hq h), d'⟩, ?_⟩
      intro hI hJ q hq q2
      rcases List.mem_cons.mp hq with rfl | hq
      · intro hN
        refine nonmin_complete hv hI hJ hD' (by simpa using hn) ?_
        obtain ⟨i', j'⟩ := d'.inv
        dsimp only at i' j'
        rw [← i', ← j']
        exact hN.mono
      · exact f' hI hJ q hq q2

namespace Props

/-- C25: `minim_p` for every prime.  The hypotheses are the cases in which `is_nonmin` (minim.cc:40-64) says that the
quartic is not minimal: for `p ≠ 3`, `p⁴ ∣ I` and `p⁶ ∣ J`; for `p = 3`, either `3⁵ ∣ I` and `3⁹ ∣ J`, or `3⁴ ∣ I`,
`3⁶ ∥ J` and `3¹⁵ ∣ 4I³ - J²`; and either the quartic has a point over the `p`-adic numbers or `p⁸ ∣ I` and `p¹² ∣ J`.
Then the matrix is multiplied by an integer matrix `t` and the scale by `u`, and the new quartic is `g∘t/u²`.  If the
flag says success, the invariants are divided by `p⁴` and `p⁶`; the flag says failure only for `p = 2`, and then the
invariants are unchanged and `t` has determinant 1. -/
theorem C25_minim_p (X : XGcd) (p : ℕ) [hp : Fact p.Prime] (g : G) (m : SU)
    (hn : (p ≠ 3 ∧ (p : ℤ) ^ 4 ∣ g.II ∧ (p : ℤ) ^ 6 ∣ g.JJ) ∨
      (p = 3 ∧ ((3 ^ 5 ∣ g.II ∧ 3 ^ 9 ∣ g.JJ) ∨
        (3 ^ 4 ∣ g.II ∧ 3 ^ 6 ∣ g.JJ ∧ ¬ 3 ^ 7 ∣ g.JJ ∧ 3 ^ 15 ∣ 4 * g.II ^ 3 - g.JJ ^ 2))))
    (hs : (∃ x y z : ℚ_[p], ¬ (x = 0 ∧ z = 0) ∧
        y ^ 2 = g.a * x ^ 4 + g.b * x ^ 3 * z + g.c * x ^ 2 * z ^ 2 + g.d * x * z ^ 3 + g.e * z ^ 4) ∨
      ((p : ℤ) ^ 8 ∣ g.II ∧ (p : ℤ) ^ 12 ∣ g.JJ)) :
    let r := minimP X g p m
    ∃ (t : M2) (u : ℤ), t.det ≠ 0 ∧ r.2.1.toU.toM = m.toU.toM * t ∧ r.2.1.m00 = m.m00 * u ∧
      (∀ x z, u ^ 2 * r.1.fn x z = act g.fn t x z) ∧
      (r.2.2 = true → u = p * t.det ∧ (p : ℤ) ^ 4 * r.1.II = g.II ∧ (p : ℤ) ^ 6 * r.1.JJ = g.JJ) ∧
      (r.2.2 = false → p = 2 ∧ u = 1 ∧ t.det = 1 ∧ r.1.II = g.II ∧ r.1.JJ = g.JJ) := by
  dsimp only
  rcases minimP_step X p hp.out g m hn (hs.imp (fun ⟨x, y, z, h0, h⟩ => SolMod.of_point ⟨x, y, z, h0, h⟩) id)
    with h | ⟨p2, h⟩
  · obtain ⟨i, j⟩ := h.inv
    obtain ⟨h1, t, u, h2, h3, h4, h4', h4''⟩ := h
    exact ⟨t, u, h2, h4, h4', h4'', fun _ => ⟨h3, i, j⟩, fun h => by rw [h1] at h; simp at h⟩
  · obtain ⟨h1, t, h2, h3⟩ := h
    obtain ⟨i, j⟩ := h3.invs h2
    exact ⟨t, 1, by rw [h2]; exact one_ne_zero, h3.1, h3.2.1, h3.2.2, fun h => by rw [h1] at h; simp at h,
      fun _ => ⟨p2, rfl, h2, i, j⟩⟩

/- the second form of the condition at 3, a success at 2 and a failure at 2 -/
example : minimP Marith.Props.xgcd0 ⟨1, 0, 9, 0, 81⟩ 3 ⟨⟨1, 0, 0, 1⟩, 1⟩ =
    (⟨1, 0, 1, 0, 1⟩, ⟨⟨3, 0, 0, 1⟩, 9⟩, true) := by decide
example : (3 : ℤ) ^ 4 ∣ (G.mk 1 0 9 0 81).II ∧ (3 : ℤ) ^ 6 ∣ (G.mk 1 0 9 0 81).JJ ∧
    ¬ (3 : ℤ) ^ 7 ∣ (G.mk 1 0 9 0 81).JJ ∧
    (3 : ℤ) ^ 15 ∣ 4 * (G.mk 1 0 9 0 81).II ^ 3 - (G.mk 1 0 9 0 81).JJ ^ 2 ∧
    (1 : ℤ) ^ 2 = (G.mk 1 0 9 0 81).fn 1 0 := by decide
example : minimP Marith.Props.xgcd0 ⟨1, 0, 4, 0, 16⟩ 2 ⟨⟨1, 0, 0, 1⟩, 1⟩ =
    (⟨1, 0, 1, 0, 1⟩, ⟨⟨2, 0, 0, 1⟩, 4⟩, true) := by decide
example : (2 : ℤ) ^ 4 ∣ (G.mk 1 0 4 0 16).II ∧ (2 : ℤ) ^ 6 ∣ (G.mk 1 0 4 0 16).JJ ∧
    (1 : ℤ) ^ 2 = (G.mk 1 0 4 0 16).fn 1 0 := by decide
example : minimP Marith.Props.xgcd0 ⟨1, 0, 0, 0, 4⟩ 2 ⟨⟨1, 0, 0, 1⟩, 1⟩ =
    (⟨1, 0, 0, 0, 4⟩, ⟨⟨1, 0, 0, 1⟩, 1⟩, false) := by decide
example : (2 : ℤ) ^ 4 ∣ (G.mk 1 0 0 0 4).II ∧ (2 : ℤ) ^ 6 ∣ (G.mk 1 0 0 0 4).JJ := by decide

/-- C25: `minim_all` (minim.cc:300-368) for a list of primes, any quartic with non-zero discriminant and its
invariants; if local solubility is assumed, the quartic must have points over the `p`-adic numbers for the primes `p`
of the list in the cases of `C25_minim_p`.  The invariants returned are those of the new quartic, and the message about wrong invariants is not printed
for any prime.  There is a positive integer `k`, all of whose prime factors are in the list, such that the invariants
are divided by `k⁴` and `k⁶`, the matrix is multiplied by `t`, the scale by `k·det t` and the new quartic is
`g∘t/(k·det t)²`.  If the invariants are not 0, the new quartic is not among the cases of `is_nonmin` for any odd prime
of the list: with solubility assumed, these are the cases in `C25_minim_p`; without, `p⁸ ∣ I` and `p¹² ∣ J`. -/
theorem C25_minim_all (X : XGcd) (ls : Bool) (ps : List ℕ) (hps : ∀ p ∈ ps, p.Prime) (g : G) (m : SU)
    (hD : 4 * g.II ^ 3 - g.JJ ^ 2 ≠ 0)
    (hs : ls = true → ∀ p ∈ ps, ∀ [Fact p.Prime], ((p ≠ 3 ∧ (p : ℤ) ^ 4 ∣ g.II ∧ (p : ℤ) ^ 6 ∣ g.JJ) ∨
      (p = 3 ∧ ((3 ^ 5 ∣ g.II ∧ 3 ^ 9 ∣ g.JJ) ∨
        (3 ^ 4 ∣ g.II ∧ 3 ^ 6 ∣ g.JJ ∧ ¬ 3 ^ 7 ∣ g.JJ ∧ 3 ^ 15 ∣ 4 * g.II ^ 3 - g.JJ ^ 2)))) →
      ∃ x y z : ℚ_[p], ¬ (x = 0 ∧ z = 0) ∧
      y ^ 2 = g.a * x ^ 4 + g.b * x ^ 3 * z + g.c * x ^ 2 * z ^ 2 + g.d * x * z ^ 3 + g.e * z ^ 4)
    (g' : G) (m' : SU) (I' J' : ℤ) (err : List ℤ)
    (hr : minimAllP X ls (ps.map (fun p : ℕ => (p : ℤ))) g m g.II g.JJ = (g', m', I', J', err)) :
    I' = g'.II ∧ J' = g'.JJ ∧ err = [] ∧
    (∃ (k : ℕ) (t : M2), k ≠ 0 ∧ (∀ q : ℕ, q.Prime → q ∣ k → q ∈ ps) ∧ (k : ℤ) ^ 4 * I' = g.II ∧
      (k : ℤ) ^ 6 * J' = g.JJ ∧ t.det ≠ 0 ∧ m'.toU.toM = m.toU.toM * t ∧ m'.m00 = m.m00 * (k * t.det) ∧
      ∀ x z, (k * t.det) ^ 2 * g'.fn x z = act g.fn t x z) ∧
    (g.II ≠ 0 → g.JJ ≠ 0 → ∀ p ∈ ps, p ≠ 2 →
      (ls = false → ¬ ((p : ℤ) ^ 8 ∣ I' ∧ (p : ℤ) ^ 12 ∣ J')) ∧
      (ls = true → p ≠ 3 → ¬ ((p : ℤ) ^ 4 ∣ I' ∧ (p : ℤ) ^ 6 ∣ J')) ∧
      (ls = true → p = 3 → ¬ (3 ^ 5 ∣ I' ∧ 3 ^ 9 ∣ J') ∧
        ¬ (3 ^ 4 ∣ I' ∧ 3 ^ 6 ∣ J' ∧ ¬ 3 ^ 7 ∣ J' ∧ 3 ^ 15 ∣ 4 * I' ^ 3 - J' ^ 2))) := by
  obtain ⟨a, b, c, ⟨k, k0, hk, d⟩, f⟩ := minimAllP_ok X ls ps g m hps (by rw [← disc_eq]; exact hD)
    (fun h p hp _ hn => hs h p hp hn) _ hr.symm
  dsimp only at a b c d f
  obtain ⟨i, j⟩ := d.inv
  obtain ⟨t, u, h1, rfl, h3, h4, h5⟩ := d
  refine ⟨a, b, c, ⟨k, t, k0, hk, by rw [a]; exact i, by rw [b]; exact j, h1, h3, h4, h5⟩, ?_⟩
  intro hI hJ p hp p2
  have := f hI hJ p hp p2
  rw [← a, ← b] at this
  refine ⟨?_, ?_, ?_⟩
  · rintro rfl h
    exact this h
  · rintro rfl p3 h
    exact this (Or.inl ⟨p3, h⟩)
  · rintro rfl p3
    exact ⟨fun h => this (Or.inr ⟨p3, Or.inl h⟩), fun h => this (Or.inr ⟨p3, Or.inr h⟩)⟩

/- two turns at 5 and one at 2, with a point at infinity -/
example : minimAllP Marith.Props.xgcd0 true ([2, 5].map (fun p : ℕ => (p : ℤ))) ⟨1, 0, 2500, 0, 16 * 390625 * 3⟩
    ⟨⟨1, 0, 0, 1⟩, 1⟩ (G.mk 1 0 2500 0 (16 * 390625 * 3)).II (G.mk 1 0 2500 0 (16 * 390625 * 3)).JJ =
    (⟨1, 0, 1, 0, 3⟩, ⟨⟨50, 0, 0, 1⟩, 2500⟩, 37, 214, []) := by decide +kernel

end Props

end Eclib.Forms
