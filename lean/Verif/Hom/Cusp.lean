import Verif.Hom.Count
import Verif.Hom.Spec
import Mathlib.Tactic.LinearCombination
import Mathlib.Tactic.FieldSimp

/-!
# Manin's theorem

Functions on M-symbols with Manin's relations are the same as modular symbols for `Γ₀(N)`.
-/

set_option linter.unusedSectionVars false

namespace Eclib.Hom

open Symb.SymbSpec ManinSpec

variable {K : Type*} [Field K]

/-! ### cusps -/

theorem cusp_zero (a : ℤ) : cusp a 0 = OnePoint.infty := if_pos rfl

theorem cusp_neg (a c : ℤ) : cusp (-a) (-c) = cusp a c := by
  unfold cusp
  by_cases h : c = 0
  · simp [h]
  · rw [if_neg h, if_neg (by simpa using h)]
    push_cast
    rw [neg_div_neg_eq]

theorem cusp_scale {k : ℤ} (hk : k ≠ 0) (a c : ℤ) : cusp (k * a) (k * c) = cusp a c := by
  unfold cusp
  by_cases h : c = 0
  · simp [h]
  · rw [if_neg h, if_neg (mul_ne_zero hk h)]
    push_cast
    rw [mul_div_mul_left _ _ (by exact_mod_cast hk)]

theorem mob_cusp (a b c d : ℤ) {x y : ℤ} (hxy : x ≠ 0 ∨ y ≠ 0) :
    mob a b c d (cusp x y) = cusp (a * x + b * y) (c * x + d * y) := by
  by_cases hy : y = 0
  · subst hy
    have hx : x ≠ 0 := by simpa using hxy
    rw [cusp_zero]
    change cusp a c = _
    rw [mul_zero, mul_zero, add_zero, add_zero, mul_comm a, mul_comm c, cusp_scale hx]
  · have hyq : (y : ℚ) ≠ 0 := by exact_mod_cast hy
    have e1 : cusp x y = (((x : ℚ) / y : ℚ) : OnePoint ℚ) := if_neg hy
    rw [e1]
    change (if (c : ℚ) * (x / y) + d = 0 then OnePoint.infty else
      (((a * (x / y) + b) / (c * (x / y) + d) : ℚ) : OnePoint ℚ)) = _
    have e2 : (c : ℚ) * (x / y) + d = ((c * x + d * y : ℤ) : ℚ) / y := by
      push_cast; field_simp
    have e3 : (a : ℚ) * (x / y) + b = ((a * x + b * y : ℤ) : ℚ) / y := by
      push_cast; field_simp
    rw [e2, e3]
    unfold cusp
    by_cases h : c * x + d * y = 0
    · rw [if_pos h, if_pos (by rw [h]; simp)]
    · have hq : ((c * x + d * y : ℤ) : ℚ) ≠ 0 := by exact_mod_cast h
      rw [if_neg h, if_neg (div_ne_zero hq hyq), div_div_div_cancel_right₀ hyq]

/-- every cusp is `a/c` with `a`, `c` coprime and `c ≥ 0` -/
theorem exists_cusp (α : OnePoint ℚ) : ∃ a c : ℤ, IsCoprime a c ∧ 0 ≤ c ∧ α = cusp a c := by
  induction α using OnePoint.rec with
  | infty => exact ⟨1, 0, isCoprime_one_left, le_rfl, (cusp_zero 1).symm⟩
  | coe x =>
    refine ⟨x.num, x.den, ?_, by positivity, ?_⟩
    · rw [Int.isCoprime_iff_gcd_eq_one]
      simpa [Int.gcd] using x.reduced
    · unfold cusp
      rw [if_neg (by exact_mod_cast x.den_nz)]
      congr 1
      exact_mod_cast (Rat.num_div_den x).symm

/-- the cusps are connected by unimodular pairs -/
theorem connect {h : OnePoint ℚ → K} (he : ∀ a b c d : ℤ, a * d - b * c = 1 → h (cusp a c) = h (cusp b d))
    (α : OnePoint ℚ) : h α = h OnePoint.infty := by
  have key : ∀ n : ℕ, ∀ a c : ℤ, c.natAbs < n → IsCoprime a c → h (cusp a c) = h OnePoint.infty := by
    intro n
    induction n with
    | zero => intro a c hc; omega
    | succ n ih =>
      intro a c hc hac
      by_cases h0 : c = 0
      · rw [h0, cusp_zero]
      · obtain ⟨u, v, huv⟩ := hac
        -- `d = u mod c`
        have e1 : u % c = u - c * (u / c) := Int.emod_def u c
        have hdet : a * (u % c) - (-v - a * (u / c)) * c = 1 := by rw [e1]; linear_combination huv
        rw [he a _ c _ hdet]
        apply ih
        · have h4 := Int.emod_lt_abs u h0
          have h5 := Int.emod_nonneg u h0
          rw [Int.abs_eq_natAbs] at h4
          omega
        · exact ⟨-c, a, by linear_combination hdet⟩
  obtain ⟨a, c, hac, -, rfl⟩ := exists_cusp α
  exact key _ a c (Nat.lt_succ_self _) hac

/-! ### from modular symbols to M-symbols -/

theorem ManinSpec.IsModSym.self {N pf : ℤ} {f : OnePoint ℚ → OnePoint ℚ → K} (hf : IsModSym N pf f) (α : OnePoint ℚ) : f α α = 0 := by
  have := hf.add α α α
  exact left_eq_add.1 this.symm

theorem ManinSpec.IsModSym.swap {N pf : ℤ} {f : OnePoint ℚ → OnePoint ℚ → K} (hf : IsModSym N pf f) (α β : OnePoint ℚ) :
    f β α = -f α β := by
  have := hf.add α β α
  rw [hf.self] at this
  linear_combination this

/-- the value only depends on the M-symbol -/
theorem ManinSpec.IsModSym.equiv {N pf : ℤ} {f : OnePoint ℚ → OnePoint ℚ → K} (hf : IsModSym N pf f) {a b c d a' b' c' d' : ℤ}
    (h : a * d - b * c = 1) (h' : a' * d' - b' * c' = 1) (he : N ∣ c' * d - d' * c) :
    f (cusp b d) (cusp a c) = f (cusp b' d') (cusp a' c') := by
  have hg : (a' * d - b' * c) * (a * d' - b * c') - (-a' * b + b' * a) * (c' * d - d' * c) = 1 := by
    linear_combination (a' * d' - b' * c') * h + h'
  have := hf.inv (a' * d - b' * c) (-a' * b + b' * a) (c' * d - d' * c) (a * d' - b * c') hg he (cusp b d) (cusp a c)
  rw [← this, mob_cusp _ _ _ _ ?_, mob_cusp _ _ _ _ ?_]
  · congr 2
    · linear_combination b' * h
    · linear_combination d' * h
    · linear_combination a' * h
    · linear_combination c' * h
  · by_contra hc
    push Not at hc
    rw [hc.1, hc.2] at h
    norm_num at h
  · by_contra hc
    push Not at hc
    rw [hc.1, hc.2] at h
    norm_num at h

/-- every M-symbol is the bottom row of a matrix of determinant 1 -/
theorem exists_matrix {N c d : ℤ} (hN : 0 < N) (h : Unimod N c d) :
    ∃ a b c' d' : ℤ, a * d' - b * c' = 1 ∧ N ∣ c' - c ∧ N ∣ d' - d := by
  obtain ⟨c', d', ⟨u, v, huv⟩, h1, h2⟩ := exists_coprime hN h
  exact ⟨v, -u, c', d', by linear_combination huv, h1, h2⟩

theorem unimod_of_det {N a b c d : ℤ} (h : a * d - b * c = 1) : Unimod N c d := ⟨-b, a, 0, by linear_combination h⟩

/-- every modular symbol has a function on M-symbols with Manin's relations -/
theorem exists_manin {N pf : ℤ} (hN : 0 < N) {f : OnePoint ℚ → OnePoint ℚ → K} (hf : IsModSym N pf f) :
    ∃ φ : ℤ → ℤ → K, IsManin N pf φ ∧ Assoc f φ := by
  classical
  have hch : ∀ c d : ℤ, ∃ v : K, ∀ a b c' d' : ℤ, a * d' - b * c' = 1 → N ∣ c' * d - d' * c → Unimod N c d →
      v = f (cusp b d') (cusp a c') := by
    intro c d
    by_cases hu : Unimod N c d
    · obtain ⟨a, b, c1, d1, h1, ⟨k, h2⟩, ⟨l, h3⟩⟩ := exists_matrix hN hu
      refine ⟨f (cusp b d1) (cusp a c1), fun a' b' c' d' h' he _ => hf.equiv h1 h' ?_⟩
      have : c' * d1 - d' * c1 = (c' * d - d' * c) + N * (c' * l - d' * k) := by
        linear_combination c' * h3 - d' * h2
      rw [this]
      exact dvd_add he (dvd_mul_right _ _)
    · exact ⟨0, fun _ _ _ _ _ _ h => absurd h hu⟩
  choose φ hφ using hch
  have hA : Assoc f φ := fun a b c d h => hφ c d a b c d h (by simp [mul_comm]) (unimod_of_det h)
  -- reduction to matrices
  have hred : ∀ {c d : ℤ}, Unimod N c d → ∃ a b c' d' : ℤ, a * d' - b * c' = 1 ∧ N ∣ c' - c ∧ N ∣ d' - d :=
    fun h => exists_matrix hN h
  have hval : ∀ {c d : ℤ}, Unimod N c d → ∀ {a b c' d' : ℤ}, a * d' - b * c' = 1 → N ∣ c' - c → N ∣ d' - d →
      φ c d = f (cusp b d') (cusp a c') := by
    rintro c d hu a b c' d' h1 ⟨k, h2⟩ ⟨l, h3⟩
    refine hφ c d a b c' d' h1 ?_ hu
    exact ⟨d * k - c * l, by linear_combination d * h2 - c * h3⟩
  refine ⟨φ, ⟨?_, ?_, ?_, ?_⟩, hA⟩
  · intro c d c' d' hu he
    have hu' := Symb.Unimod.of_equiv he hu
    obtain ⟨u, -, ⟨k, hk⟩, ⟨l, hl⟩⟩ := he
    obtain ⟨a1, b1, c1, d1, e1, ⟨k1, e2⟩, ⟨l1, e3⟩⟩ := hred hu
    obtain ⟨a2, b2, c2, d2, e4, ⟨k2, e5⟩, ⟨l2, e6⟩⟩ := hred hu'
    rw [hval hu e1 ⟨k1, e2⟩ ⟨l1, e3⟩, hval hu' e4 ⟨k2, e5⟩ ⟨l2, e6⟩]
    refine hf.equiv e1 e4 ⟨d1 * (k2 + k - u * k1) - c1 * (l2 + l - u * l1), ?_⟩
    linear_combination d1 * (e5 + hk - u * e2) - c1 * (e6 + hl - u * e3)
  · intro c d hu
    obtain ⟨a, b, c1, d1, e1, ⟨k1, e2⟩, ⟨l1, e3⟩⟩ := hred hu
    rw [hval hu e1 ⟨k1, e2⟩ ⟨l1, e3⟩, hval (um_s hu) (a := -b) (b := a) (c' := -d1) (d' := c1) (by linear_combination e1)
      ⟨-l1, by linear_combination -e3⟩ ⟨k1, e2⟩, cusp_neg, hf.add, hf.self]
  · intro c d hu
    obtain ⟨a, b, c1, d1, e1, ⟨k1, e2⟩, ⟨l1, e3⟩⟩ := hred hu
    rw [hval hu e1 ⟨k1, e2⟩ ⟨l1, e3⟩, hval (um_t hu) (a := a - b) (b := a) (c' := c1 - d1) (d' := c1) (by linear_combination e1)
      ⟨k1 - l1, by linear_combination e2 - e3⟩ ⟨k1, e2⟩,
      hval (um_tt hu) (a := -b) (b := a - b) (c' := -d1) (d' := c1 - d1) (by linear_combination e1)
      ⟨-l1, by linear_combination -e3⟩ ⟨k1 - l1, by linear_combination e2 - e3⟩, cusp_neg, hf.add, hf.add, hf.self]
  · intro hpf c d hu
    obtain ⟨a, b, c1, d1, e1, ⟨k1, e2⟩, ⟨l1, e3⟩⟩ := hred hu
    have hs := hf.sign hpf (cusp b d1) (cusp a c1)
    have hne : ∀ {x y z w : ℤ}, x * y - z * w = 1 → x ≠ 0 ∨ w ≠ 0 := by
      intro x y z w h
      by_contra hc
      push Not at hc
      rw [hc.1, hc.2] at h
      norm_num at h
    rw [mob_cusp _ _ _ _ (hne (x := b) (y := -c1) (w := d1) (z := -a) (by linear_combination e1)),
      mob_cusp _ _ _ _ (hne e1)] at hs
    rw [hval hu e1 ⟨k1, e2⟩ ⟨l1, e3⟩, ← hs, hval (um_r hu) (a := a) (b := -b) (c' := -c1) (d' := d1) (by linear_combination e1)
      ⟨-k1, by linear_combination -e2⟩ ⟨l1, e3⟩, ← cusp_neg a (-c1)]
    congr 2 <;> ring

/-! ### from M-symbols to modular symbols -/

/-- a function on cusps with given differences along unimodular pairs: `x/y ↦ pot φ y x` -/
noncomputable def pot (φ : ℤ → ℤ → K) : ℕ → ℤ → K
  | 0, _ => 0
  | y + 1, x =>
    let q := Int.gcdA x (y + 1 : ℕ) % (y + 1 : ℕ)
    pot φ q.toNat ((x * q - 1) / (y + 1 : ℕ)) + φ (y + 1 : ℕ) q
termination_by y => y
decreasing_by
  have h1 := Int.emod_lt_of_pos (Int.gcdA x (y + 1 : ℕ)) (by positivity : (0 : ℤ) < (y + 1 : ℕ))
  have h2 := Int.emod_nonneg (Int.gcdA x (y + 1 : ℕ)) (by positivity : ((y + 1 : ℕ) : ℤ) ≠ 0)
  omega

theorem pot_step (φ : ℤ → ℤ → K) {a b c d : ℤ} (h : a * d - b * c = 1) (hd : 0 ≤ d) (hc : d < c) :
    pot φ c.toNat a = pot φ d.toNat b + φ c d := by
  obtain ⟨y, rfl⟩ : ∃ y : ℕ, c = (y + 1 : ℕ) := ⟨c.toNat - 1, by omega⟩
  rw [Int.toNat_natCast]
  conv_lhs => unfold pot
  have hq : Int.gcdA a (y + 1 : ℕ) % (y + 1 : ℕ) = d := by
    have h1 := Int.gcd_eq_gcd_ab a (y + 1 : ℕ)
    have h2 : Int.gcd a (y + 1 : ℕ) = 1 := Int.isCoprime_iff_gcd_eq_one.1 ⟨d, -b, by linear_combination h⟩
    rw [h2] at h1
    have h3 : ((y + 1 : ℕ) : ℤ) ∣ Int.gcdA a (y + 1 : ℕ) - d := by
      refine ⟨-d * Int.gcdB a (y + 1 : ℕ) - b * Int.gcdA a (y + 1 : ℕ), ?_⟩
      push_cast at h1 h ⊢
      linear_combination -d * h1 - Int.gcdA a (y + 1) * h
    rw [Int.emod_eq_emod_iff_emod_sub_eq_zero.2 (Int.emod_eq_zero_of_dvd h3)]
    exact Int.emod_eq_of_lt hd hc
  simp only [hq]
  have : a * d - 1 = b * (y + 1 : ℕ) := by linear_combination h
  rw [this, Int.mul_ediv_cancel _ (by positivity)]

theorem pot_edge {N pf : ℤ} {φ : ℤ → ℤ → K} (hφ : IsManin N pf φ) (n : ℕ) : ∀ {a b c d : ℤ}, a * d - b * c = 1 → 0 ≤ c → 0 ≤ d →
    c + d < n → pot φ c.toNat a - pot φ d.toNat b = φ c d := by
  have hneg : ∀ {c d : ℤ}, Unimod N c d → φ (-c) (-d) = φ c d := fun hu =>
    (hφ.equiv hu ⟨-1, ⟨-1, 0, by ring⟩, by simp, by simp⟩).symm
  have h10 : Unimod N 1 0 := ⟨1, 0, 0, by ring⟩
  have h01 : Unimod N 0 1 := ⟨0, 1, 0, by ring⟩
  have e01 : φ 0 1 = -φ 1 0 := by
    have h1 := hφ.two h01
    have h2 := hneg h10
    rw [neg_zero] at h2
    rw [h2] at h1
    linear_combination h1
  induction n with
  | zero => intro a b c d _ _ _ _; omega
  | succ n ih =>
    intro a b c d h hc hd hn
    rcases lt_trichotomy c d with hcd | hcd | hcd
    · -- `c < d`
      by_cases c0 : c = 0
      · subst c0
        have hd1 : d = 1 := by
          have : d ∣ 1 := ⟨a, by linear_combination -h⟩
          have := Int.le_of_dvd one_pos this
          omega
        subst hd1
        have e := pot_step φ (a := b) (b := -1) (c := 1) (d := 0) (by ring) le_rfl one_pos
        rw [e, e01]
        simp [pot]
      · have e1 := pot_step φ (a := b) (b := b - a) (c := d) (d := d - c) (by linear_combination h) (by omega) (by omega)
        have e2 := ih (a := a) (b := b - a) (c := c) (d := d - c) (by linear_combination h) hc (by omega) (by omega)
        have hu : Unimod N d (d - c) := unimod_of_det (a := b) (b := b - a) (by linear_combination h)
        have hu' : Unimod N c (d - c) := unimod_of_det (a := a) (b := b - a) (by linear_combination h)
        have h3 := hφ.three hu
        have h2 := hφ.two hu'
        have x1 : d - (d - c) = c := by ring
        rw [x1] at h3
        rw [e1]
        linear_combination e2 + h2 - h3
    · -- `c = d = 1`
      subst hcd
      have hc1 : c = 1 := by
        have : c ∣ 1 := ⟨a - b, by linear_combination -h⟩
        have := Int.le_of_dvd one_pos this
        have : c ≠ 0 := by rintro rfl; simp at h
        omega
      subst hc1
      have e1 := pot_step φ (a := a) (b := -1) (c := 1) (d := 0) (by ring) le_rfl one_pos
      have e2 := pot_step φ (a := b) (b := -1) (c := 1) (d := 0) (by ring) le_rfl one_pos
      have h3 := hφ.three (c := 1) (d := 1) ⟨1, 0, 0, by ring⟩
      have h2 := hφ.two h01
      rw [e1, e2]
      norm_num at h3 h2 ⊢
      linear_combination h2 - h3
    · rw [pot_step φ h hd hcd]
      ring

/-- the potential as a function on cusps -/
noncomputable def potc (φ : ℤ → ℤ → K) : OnePoint ℚ → K
  | none => 0
  | some x => pot φ x.den x.num

theorem potc_cusp (φ : ℤ → ℤ → K) {a c : ℤ} (h : IsCoprime a c) (hc : 0 ≤ c) : potc φ (cusp a c) = pot φ c.toNat a := by
  unfold cusp
  by_cases h0 : c = 0
  · subst h0
    rw [if_pos rfl]
    simp [pot]
    rfl
  · rw [if_neg h0]
    change pot φ ((a : ℚ) / c).den ((a : ℚ) / c).num = _
    have hg := Int.isCoprime_iff_gcd_eq_one.1 h
    rw [Rat.num_div_eq_of_coprime (by omega) hg]
    congr 1
    have := Rat.den_div_eq_of_coprime (a := a) (b := c) (by omega) hg
    omega

theorem potc_edge {N pf : ℤ} {φ : ℤ → ℤ → K} (hφ : IsManin N pf φ) {a b c d : ℤ} (h : a * d - b * c = 1) :
    potc φ (cusp a c) - potc φ (cusp b d) = φ c d := by
  have key : ∀ {a b c d : ℤ}, a * d - b * c = 1 → 0 ≤ c → 0 ≤ d → potc φ (cusp a c) - potc φ (cusp b d) = φ c d := by
    intro a b c d h hc hd
    rw [potc_cusp φ ⟨d, -b, by linear_combination h⟩ hc, potc_cusp φ ⟨-c, a, by linear_combination h⟩ hd]
    exact pot_edge hφ (c + d + 1).toNat h hc hd (by omega)
  have hneg : ∀ {c d : ℤ}, Unimod N c d → φ (-c) (-d) = φ c d := fun hu =>
    (hφ.equiv hu ⟨-1, ⟨-1, 0, by ring⟩, by simp, by simp⟩).symm
  have hu : Unimod N c d := unimod_of_det h
  rcases le_total 0 c with hc | hc <;> rcases le_total 0 d with hd | hd
  · exact key h hc hd
  · have h1 := key (a := -b) (b := a) (c := -d) (d := c) (by linear_combination h) (by omega) hc
    rw [cusp_neg] at h1
    linear_combination -h1 - hφ.two hu
  · have h1 := key (a := b) (b := -a) (c := d) (d := -c) (by linear_combination h) hd (by omega)
    rw [cusp_neg] at h1
    have h2 := hφ.two (um_s (um_s (um_s hu)))
    rw [neg_neg, neg_neg] at h2
    linear_combination -h1 - h2
  · have h1 := key (a := -a) (b := -b) (c := -c) (d := -d) (by linear_combination h) (by omega) (by omega)
    rw [cusp_neg, cusp_neg, hneg hu] at h1
    exact h1

/-- every function on M-symbols with Manin's relations comes from a modular symbol -/
theorem exists_modsym {N pf : ℤ} {φ : ℤ → ℤ → K} (hφ : IsManin N pf φ) :
    ∃ f : OnePoint ℚ → OnePoint ℚ → K, IsModSym N pf f ∧ Assoc f φ := by
  have hne : ∀ {x y z w : ℤ}, x * y - z * w = 1 → x ≠ 0 ∨ w ≠ 0 := by
    intro x y z w h
    by_contra hc
    push Not at hc
    rw [hc.1, hc.2] at h
    norm_num at h
  refine ⟨fun α β => potc φ β - potc φ α, ⟨?_, ?_, ?_⟩, ?_⟩
  · intro α β γ; ring
  · rintro a b c d h ⟨k, hk⟩ α β
    have hc := connect (h := fun α => potc φ (mob a b c d α) - potc φ α) (by
      intro x z y w hxy
      have hyz : x * w - z * y = 1 := by linear_combination hxy
      have e1 := potc_edge hφ hyz
      have e2 := potc_edge hφ (a := a * x + b * y) (b := a * z + b * w) (c := c * x + d * y) (d := c * z + d * w)
        (by linear_combination (a * d - b * c) * hyz + h)
      rw [mob_cusp _ _ _ _ (hne (y := w) (z := z) hyz), mob_cusp _ _ _ _ (hne (x := z) (y := -y) (z := -x) (by linear_combination hyz))]
      have e3 : φ y w = φ (c * x + d * y) (c * z + d * w) := by
        refine hφ.equiv (unimod_of_det hyz) ⟨d, ⟨a, -b * k, by rw [hk] at h; linear_combination h⟩, ⟨k * x, ?_⟩, ⟨k * z, ?_⟩⟩
        · rw [hk]; ring
        · rw [hk]; ring
      linear_combination e2 - e1 - e3)
    have h1 := hc α
    have h2 := hc β
    linear_combination h2 - h1
  · intro hpf α β
    have hc := connect (h := fun α => potc φ (mob (-1) 0 0 1 α) - pf * potc φ α) (by
      intro x z y w hxy
      have e1 := potc_edge hφ hxy
      have e2 := potc_edge hφ (a := x) (b := -z) (c := -y) (d := w) (by linear_combination hxy)
      rw [mob_cusp _ _ _ _ (hne (y := w) (z := z) hxy), mob_cusp _ _ _ _ (hne (x := z) (y := -y) (z := -x) (by linear_combination hxy))]
      have e3 := hφ.sign hpf (unimod_of_det (N := N) hxy)
      rw [← cusp_neg x (-y), neg_neg] at e2
      have x1 : -1 * x + 0 * y = -x := by ring
      have x2 : 0 * x + 1 * y = y := by ring
      have x3 : -1 * z + 0 * w = -z := by ring
      have x4 : 0 * z + 1 * w = w := by ring
      rw [x1, x2, x3, x4]
      linear_combination e2 - pf * e1 + e3)
    have h1 := hc α
    have h2 := hc β
    linear_combination h2 - h1
  · intro a b c d h
    exact (potc_edge hφ h).symm

/-- the modular symbol is determined -/
theorem assoc_unique {N pf : ℤ} {f f' : OnePoint ℚ → OnePoint ℚ → K} {φ : ℤ → ℤ → K} (hf : IsModSym N pf f) (hf' : IsModSym N pf f')
    (h : Assoc f φ) (h' : Assoc f' φ) (α β : OnePoint ℚ) : f α β = f' α β := by
  have hc := connect (h := fun α => f OnePoint.infty α - f' OnePoint.infty α) (by
    intro a b c d hd
    have e1 := h a b c d hd
    have e2 := h' a b c d hd
    have e3 := hf.add OnePoint.infty (cusp b d) (cusp a c)
    have e4 := hf'.add OnePoint.infty (cusp b d) (cusp a c)
    linear_combination e2 - e1 - e3 + e4)
  have h1 := hc α
  have h2 := hc β
  simp only [hf.self, hf'.self] at h1 h2
  have e3 := hf.add OnePoint.infty α β
  have e4 := hf'.add OnePoint.infty α β
  linear_combination h2 - h1 + e3 - e4

end Eclib.Hom
