import Verif.Local.HilbertProps
import Mathlib.Algebra.Squarefree.Basic
import Mathlib.Data.Nat.Squarefree
import Mathlib.NumberTheory.LegendreSymbol.JacobiSymbol
import Mathlib.Data.Nat.ChineseRemainder
import Mathlib.RingTheory.Int.Basic

/-!
# The product formula and the theorem of Legendre (Hasse and Minkowski in three variables)

These give the global meaning of `global_hilbert` (C45).
-/

namespace Eclib.Local

/-- `a x^2 + b y^2 = z^2` has a non-trivial solution in integers (equivalently, rationals) -/
def SolInt (a b : ℤ) : Prop :=
  ∃ x y z : ℤ, ¬ (x = 0 ∧ y = 0 ∧ z = 0) ∧ a * x ^ 2 + b * y ^ 2 = z ^ 2

theorem SolInt.symm {a b : ℤ} (h : SolInt a b) : SolInt b a := by
  obtain ⟨x, y, z, h0, h⟩ := h
  exact ⟨y, x, z, fun hh => h0 ⟨hh.2.1, hh.1, hh.2.2⟩, by rw [← h]; ring⟩

theorem SolInt.local {a b : ℤ} (h : SolInt a b) (p : ℕ) [Fact p.Prime] : Sol p a b := by
  obtain ⟨x, y, z, h0, h⟩ := h
  refine ⟨x, y, z, fun hh => h0 ?_, ?_⟩
  · exact ⟨by exact_mod_cast hh.1, by exact_mod_cast hh.2.1, by exact_mod_cast hh.2.2⟩
  · exact_mod_cast congrArg (Int.cast : ℤ → ℚ_[p]) h

theorem SolInt.real {a b : ℤ} (h : SolInt a b) : SolReal a b := by
  obtain ⟨x, y, z, h0, h⟩ := h
  refine ⟨x, y, z, fun hh => h0 ?_, ?_⟩
  · exact ⟨by exact_mod_cast hh.1, by exact_mod_cast hh.2.1, by exact_mod_cast hh.2.2⟩
  · exact_mod_cast congrArg (Int.cast : ℤ → ℝ) h

/-! ### the symbol with values in the integers modulo two -/

open Classical in
/-- the symbol at a prime, additively; `0` if `p` is not prime -/
noncomputable def hz (p : ℕ) (a b : ℤ) : ZMod 2 :=
  if h : p.Prime then (if @Sol p ⟨h⟩ a b then 0 else 1) else 0

open Classical in
/-- the symbol at infinity -/
noncomputable def hr (a b : ℤ) : ZMod 2 := if SolReal a b then 0 else 1

theorem hz_eq_zero {p : ℕ} [hp : Fact p.Prime] {a b : ℤ} : hz p a b = 0 ↔ Sol p a b := by
  rw [hz, dif_pos hp.out]
  split_ifs with h <;> simp [h]

theorem hr_eq_zero {a b : ℤ} : hr a b = 0 ↔ SolReal a b := by
  rw [hr]
  split_ifs with h <;> simp [h]

theorem hz_symm (p : ℕ) (a b : ℤ) : hz p a b = hz p b a := by
  rw [hz, hz]
  split_ifs with h h1 h2 h2 <;> try rfl
  · exact absurd (@Sol.symm p ⟨h⟩ _ _ h1) h2
  · exact absurd (@Sol.symm p ⟨h⟩ _ _ h2) h1

theorem hr_symm {a b : ℤ} (ha : a ≠ 0) (hb : b ≠ 0) : hr a b = hr b a := by
  simp only [hr, solReal_iff ha hb, solReal_iff hb ha, or_comm]

/-- the answer of the code as an element of the integers modulo two -/
theorem hz_eq_code {p : ℕ} [hp : Fact p.Prime] {a b : ℤ} (ha : a ≠ 0) (hb : b ≠ 0) :
    ∃ h : ℤ, localHilbert a b p = some h ∧ hz p a b = (h : ZMod 2) := by
  obtain ⟨h, h1, h2, h3⟩ := C45_local (p := p) ha hb
  refine ⟨h, h1, ?_⟩
  rcases h2 with rfl | rfl
  · rw [hz_eq_zero.mpr (h3.mp rfl)]
    simp
  · have : hz p a b ≠ 0 := fun h => by
      have := h3.mpr (hz_eq_zero.mp h)
      omega
    rw [hz, dif_pos hp.out] at this ⊢
    split_ifs with h'
    · simp [h'] at this
    · simp

theorem hr_eq_code {a b : ℤ} (ha : a ≠ 0) (hb : b ≠ 0) :
    ∃ h : ℤ, localHilbert a b 0 = some h ∧ hr a b = (h : ZMod 2) := by
  obtain ⟨h, h1, h2, h3⟩ := C45_real (q := 0) ha hb le_rfl
  refine ⟨h, h1, ?_⟩
  rcases h2 with rfl | rfl
  · rw [hr_eq_zero.mpr (h3.mp rfl)]
    simp
  · have : hr a b ≠ 0 := fun h => by
      have := h3.mpr (hr_eq_zero.mp h)
      omega
    rw [hr] at this ⊢
    split_ifs with h'
    · simp [h'] at this
    · simp

theorem cast_mod_two (x : ℤ) : ((x % 2 : ℤ) : ZMod 2) = (x : ZMod 2) := ZMod.intCast_mod x 2

theorem hz_mul (p : ℕ) {a a' b : ℤ} (ha : a ≠ 0) (ha' : a' ≠ 0) (hb : b ≠ 0) :
    hz p (a * a') b = hz p a b + hz p a' b := by
  by_cases hp : p.Prime
  · have : Fact p.Prime := ⟨hp⟩
    obtain ⟨h, h', e1, e2, e3⟩ := C45_mul ha ha' hb (Or.inr (Nat.prime_iff_prime_int.mp hp))
    obtain ⟨k, f1, f2⟩ := hz_eq_code (p := p) ha hb
    obtain ⟨k', f1', f2'⟩ := hz_eq_code (p := p) ha' hb
    obtain ⟨k'', f1'', f2''⟩ := hz_eq_code (p := p) (mul_ne_zero ha ha') hb
    rw [e1] at f1
    rw [e2] at f1'
    rw [e3] at f1''
    rw [f2, f2', f2'', ← Option.some.inj f1, ← Option.some.inj f1', ← Option.some.inj f1'',
      cast_mod_two]
    push_cast
    rfl
  · simp [hz, hp]

theorem hr_mul {a a' b : ℤ} (ha : a ≠ 0) (ha' : a' ≠ 0) (hb : b ≠ 0) :
    hr (a * a') b = hr a b + hr a' b := by
  obtain ⟨h, h', e1, e2, e3⟩ := C45_mul ha ha' hb (Or.inl (le_refl (0 : ℤ)))
  obtain ⟨k, f1, f2⟩ := hr_eq_code ha hb
  obtain ⟨k', f1', f2'⟩ := hr_eq_code ha' hb
  obtain ⟨k'', f1'', f2''⟩ := hr_eq_code (mul_ne_zero ha ha') hb
  rw [e1] at f1
  rw [e2] at f1'
  rw [e3] at f1''
  rw [f2, f2', f2'', ← Option.some.inj f1, ← Option.some.inj f1', ← Option.some.inj f1'',
    cast_mod_two]
  push_cast
  rfl

theorem hz_mul_right (p : ℕ) {a b b' : ℤ} (ha : a ≠ 0) (hb : b ≠ 0) (hb' : b' ≠ 0) :
    hz p a (b * b') = hz p a b + hz p a b' := by
  rw [hz_symm, hz_mul p hb hb' ha, hz_symm p b, hz_symm p b']

theorem hr_mul_right {a b b' : ℤ} (ha : a ≠ 0) (hb : b ≠ 0) (hb' : b' ≠ 0) :
    hr a (b * b') = hr a b + hr a b' := by
  rw [hr_symm ha (mul_ne_zero hb hb'), hr_mul hb hb' ha, hr_symm hb ha, hr_symm hb' ha]

/-! ### the theorem of Legendre -/

/-- a square modulo every prime divisor of a squarefree number is a square modulo the number -/
theorem square_mod (a : ℤ) (n : ℕ) (hn : Squarefree n)
    (h : ∀ p : ℕ, p.Prime → p ∣ n → IsSquare (a : ZMod p)) : ∃ t : ℕ, (n : ℤ) ∣ (t : ℤ) ^ 2 - a := by
  induction n using Nat.strong_induction_on with
  | _ n ih =>
    by_cases h1 : n = 1
    · subst h1
      exact ⟨0, by simp⟩
    · have hp := Nat.minFac_prime h1
      obtain ⟨m, hm⟩ := Nat.minFac_dvd n
      generalize hpe : n.minFac = p at hp hm
      have hn0 : n ≠ 0 := hn.ne_zero
      have hm0 : 0 < m := by
        rcases Nat.eq_zero_or_pos m with h | h
        · rw [h, mul_zero] at hm
          exact absurd hm hn0
        · exact h
      have hcop : Nat.Coprime p m := by
        rw [hm] at hn
        exact Nat.coprime_of_squarefree_mul hn
      have hlt : m < n := by
        rw [hm]
        nlinarith [hp.two_le]
      obtain ⟨t1, h2⟩ := ih m hlt (hn.squarefree_of_dvd ⟨p, by rw [hm]; ring⟩)
        fun q hq hqm => h q hq (hqm.trans ⟨p, by rw [hm]; ring⟩)
      have : NeZero p := ⟨hp.ne_zero⟩
      obtain ⟨c, hc⟩ := h p hp ⟨m, hm⟩
      obtain ⟨t, ht1, ht2⟩ := Nat.chineseRemainder hcop c.val t1
      refine ⟨t, ?_⟩
      have d1 : (p : ℤ) ∣ (t : ℤ) ^ 2 - a := by
        rw [← ZMod.intCast_zmod_eq_zero_iff_dvd]
        have : ((t : ℕ) : ZMod p) = c := by
          rw [(ZMod.natCast_eq_natCast_iff t c.val p).mpr ht1, ZMod.natCast_zmod_val]
        push_cast
        rw [this, hc]
        ring
      have d2 : (m : ℤ) ∣ (t : ℤ) ^ 2 - a := by
        have h3 : (m : ℤ) ∣ (t : ℤ) - t1 := (Nat.modEq_iff_dvd.mp ht2.symm)
        have : (t : ℤ) ^ 2 - a = ((t : ℤ) - t1) * (t + t1) + ((t1 : ℤ) ^ 2 - a) := by ring
        rw [this]
        exact dvd_add (h3.mul_right _) h2
      rw [hm]
      push_cast
      exact IsCoprime.mul_dvd (Nat.isCoprime_iff_coprime.mpr hcop) d1 d2

/-- local solubility everywhere -/
def Everywhere (a b : ℤ) : Prop := SolReal a b ∧ ∀ p : ℕ, ∀ h : p.Prime, @Sol p ⟨h⟩ a b

theorem everywhere_iff {a b : ℤ} : Everywhere a b ↔ hr a b = 0 ∧ ∀ p : ℕ, hz p a b = 0 := by
  rw [Everywhere, hr_eq_zero]
  refine and_congr_right fun _ => ⟨fun h p => ?_, fun h p hp => ?_⟩
  · by_cases hp : p.Prime
    · exact (@hz_eq_zero p ⟨hp⟩ a b).mpr (h p hp)
    · simp [hz, hp]
  · exact (@hz_eq_zero p ⟨hp⟩ a b).mp (h p)

theorem Everywhere.symm {a b : ℤ} (h : Everywhere a b) : Everywhere b a := by
  refine ⟨?_, fun p hp => @Sol.symm p ⟨hp⟩ _ _ (h.2 p hp)⟩
  obtain ⟨x, y, z, h0, h⟩ := h.1
  exact ⟨y, x, z, fun hh => h0 ⟨hh.2.1, hh.1, hh.2.2⟩, by rw [← h]; ring⟩

theorem zmod_two_square : ∀ x : ZMod 2, IsSquare x := by decide

/-- a local solution at a prime dividing `b` exactly once makes `a` a square modulo that prime -/
theorem square_of_sol {p : ℕ} [hp : Fact p.Prime] {a v : ℤ} (hv : ¬ (p : ℤ) ∣ v)
    (h : Sol p a (p * v)) : IsSquare (a : ZMod p) := by
  by_cases h2 : p = 2
  · subst h2
    exact zmod_two_square _
  · by_cases ha : (p : ℤ) ∣ a
    · rw [(ZMod.intCast_zmod_eq_zero_iff_dvd a p).mpr ha]
      exact ⟨0, by ring⟩
    · exact (sol_odd_left h2 hv ha).mp h.symm

/-- not squarefree: a square factor can be removed -/
theorem square_factor {a : ℤ} (ha : a ≠ 0) (h : ¬ Squarefree a) :
    ∃ a' s : ℤ, a = a' * s ^ 2 ∧ s ≠ 0 ∧ a'.natAbs < a.natAbs := by
  rw [Squarefree] at h
  push Not at h
  obtain ⟨s, ⟨a', e⟩, hs⟩ := h
  have hs0 : s ≠ 0 := by
    rintro rfl
    simp at e
    exact ha e
  have ha0 : a' ≠ 0 := by
    rintro rfl
    simp at e
    exact ha e
  refine ⟨a', s, by rw [e]; ring, hs0, ?_⟩
  rw [e, Int.natAbs_mul, Int.natAbs_mul]
  have h1 : 2 ≤ s.natAbs := by
    have := mt Int.isUnit_iff_natAbs_eq.mpr hs
    have := Int.natAbs_pos.mpr hs0
    omega
  have h2 := Int.natAbs_pos.mpr ha0
  nlinarith [Nat.mul_le_mul h1 h1]

theorem solInt_scale {a b s : ℤ} (hs : s ≠ 0) (h : SolInt a b) : SolInt (a * s ^ 2) b := by
  obtain ⟨x, y, z, h0, h⟩ := h
  refine ⟨x, y * s, z * s, fun hh => h0 ⟨hh.1, ?_, ?_⟩, ?_⟩
  · exact (mul_eq_zero.mp hh.2.1).resolve_right hs
  · exact (mul_eq_zero.mp hh.2.2).resolve_right hs
  · linear_combination s ^ 2 * h

theorem everywhere_unscale {a b s : ℤ} (ha : a ≠ 0) (hb : b ≠ 0) (hs : s ≠ 0)
    (h : Everywhere (a * s ^ 2) b) : Everywhere a b := by
  refine ⟨?_, fun p hp => (@sol_scale_left p ⟨hp⟩ a b s hs).mp (h.2 p hp)⟩
  have h1 := h.1
  rw [solReal_iff (mul_ne_zero ha (pow_ne_zero _ hs)) hb] at h1
  rw [solReal_iff ha hb]
  have h2 : 0 < s ^ 2 := by positivity
  rcases h1 with h1 | h1
  · exact Or.inl (pos_of_mul_pos_left h1 h2.le)
  · exact Or.inr h1

/-- **Legendre**: a non-degenerate ternary form `a x^2 + b y^2 - z^2` that is isotropic at every
place is isotropic over the rationals. -/
theorem legendre_thm (a b : ℤ) (ha : a ≠ 0) (hb : b ≠ 0) (h : Everywhere a b) : SolInt a b := by
  induction hm : a.natAbs + b.natAbs using Nat.strong_induction_on generalizing a b with
  | _ m ih =>
    have main : ∀ a b : ℤ, a ≠ 0 → b ≠ 0 → Everywhere a b → a.natAbs + b.natAbs = m →
        a.natAbs ≤ b.natAbs → SolInt a b := by
      intro a b ha hb h hm hab
      by_cases hsa : Squarefree a
      · by_cases hsb : Squarefree b
        · by_cases hb1 : b.natAbs = 1
          · have hb' : b = 1 ∨ b = -1 := by omega
            have ha' : a = 1 ∨ a = -1 := by
              have := Int.natAbs_pos.mpr ha
              omega
            rcases hb' with rfl | rfl
            · exact ⟨0, 1, 1, by simp, by ring⟩
            · rcases ha' with rfl | rfl
              · exact ⟨1, 0, 1, by simp, by ring⟩
              · have := (solReal_iff (by norm_num) (by norm_num)).mp h.1
                omega
          · have hb2 : 2 ≤ b.natAbs := by
              have := Int.natAbs_pos.mpr hb
              omega
            -- a is a square modulo b
            obtain ⟨t0, ht0⟩ := square_mod a b.natAbs (Int.squarefree_natAbs.mpr hsb) (by
              intro p hp hpd
              have hf : Fact p.Prime := ⟨hp⟩
              obtain ⟨v, hv⟩ := Int.natCast_dvd.mpr hpd
              refine square_of_sol (v := v) ?_ (hv ▸ h.2 p hp)
              rintro ⟨w, rfl⟩
              have : (p : ℤ) * p ∣ b := ⟨w, by rw [hv]; ring⟩
              have := hsb _ this
              rw [Int.isUnit_iff_natAbs_eq, Int.natAbs_natCast] at this
              exact hp.one_lt.ne' this)
            -- choose the root of least absolute value
            obtain ⟨t, htd, htl⟩ : ∃ t : ℤ, b ∣ t ^ 2 - a ∧ 2 * |t| ≤ |b| := by
              rw [Int.natCast_natAbs, abs_dvd] at ht0
              refine ⟨Int.bmod t0 b.natAbs, ?_, ?_⟩
              · have hd : b ∣ Int.bmod t0 b.natAbs - t0 := by
                  have := Int.dvd_bmod_sub_self (x := (t0 : ℤ)) (m := b.natAbs)
                  rwa [Int.natCast_natAbs, abs_dvd] at this
                have e : Int.bmod t0 b.natAbs ^ 2 - a =
                    (Int.bmod t0 b.natAbs - t0) * (Int.bmod t0 b.natAbs + t0) + ((t0 : ℤ) ^ 2 - a) := by
                  ring
                rw [e]
                exact dvd_add (hd.mul_right _) ht0
              · have h1 := Int.le_bmod (x := (t0 : ℤ)) (m := b.natAbs) (by omega)
                have h2 := Int.bmod_lt (x := (t0 : ℤ)) (m := b.natAbs) (by omega)
                rw [Int.natCast_natAbs] at h1 h2
                have h3 : 2 * Int.bmod t0 b.natAbs ≤ |b| ∧ -|b| ≤ 2 * Int.bmod t0 b.natAbs := by omega
                rcases abs_cases (Int.bmod t0 b.natAbs) with ⟨e, -⟩ | ⟨e, -⟩ <;> rw [e] <;> omega
            obtain ⟨b', hb'⟩ := htd
            by_cases hb0 : b' = 0
            · rw [hb0, mul_zero] at hb'
              exact ⟨1, 0, t, by simp, by linear_combination -hb'⟩
            · have hlt : b'.natAbs < b.natAbs := by
                have hA : |a| ≤ |b| := by
                  rw [Int.abs_eq_natAbs, Int.abs_eq_natAbs]
                  exact_mod_cast hab
                have hB : 2 ≤ |b| := by
                  rw [Int.abs_eq_natAbs]
                  exact_mod_cast hb2
                have h1 : |b| * |b'| ≤ |t| ^ 2 + |a| := by
                  rw [← abs_mul, ← hb', ← abs_pow]
                  exact abs_sub _ _
                have h2 : |b'| < |b| := by
                  by_contra hge
                  have hge' : |b| ≤ |b'| := not_lt.mp hge
                  nlinarith [abs_nonneg t, mul_le_mul_of_nonneg_left hge' (abs_nonneg b)]
                have := Int.natAbs_lt_natAbs_of_nonneg_of_lt (abs_nonneg b') h2
                rwa [Int.natAbs_abs, Int.natAbs_abs] at this
              have hglob : SolInt a (b * b') := ⟨1, 1, t, by simp, by linear_combination -hb'⟩
              have hev : Everywhere a b' := by
                have h1 := everywhere_iff.mp h
                have h2 : Everywhere a (b * b') := ⟨hglob.real, fun p hp => @SolInt.local _ _ hglob p ⟨hp⟩⟩
                have h3 := everywhere_iff.mp h2
                rw [everywhere_iff]
                refine ⟨?_, fun p => ?_⟩
                · have := h3.1
                  rwa [hr_mul_right ha hb hb0, h1.1, zero_add] at this
                · have := h3.2 p
                  rwa [hz_mul_right p ha hb hb0, h1.2 p, zero_add] at this
              obtain ⟨X, Y, Z, h0, hXYZ⟩ := ih (a.natAbs + b'.natAbs) (by omega) a b' ha hb0 hev rfl
              by_cases hY : Y = 0
              · subst hY
                exact ⟨X, 0, Z, h0, by linear_combination hXYZ⟩
              · refine ⟨Z + t * X, b' * Y, t * Z + a * X, fun hh => ?_, ?_⟩
                · rcases mul_eq_zero.mp hh.2.1 with h | h
                  · exact hb0 h
                  · exact hY h
                · linear_combination (t ^ 2 - a) * hXYZ - b' * Y ^ 2 * hb'
        · obtain ⟨b', s, e, hs, hlt⟩ := square_factor hb hsb
          have hb0 : b' ≠ 0 := by
            rintro rfl
            simp at e
            exact hb e
          rw [e]
          refine (solInt_scale hs (SolInt.symm ?_)).symm
          refine ih (a.natAbs + b'.natAbs) (by omega) a b' ha hb0 ?_ rfl
          rw [e] at h
          exact (everywhere_unscale hb0 ha hs h.symm).symm
      · obtain ⟨a', s, e, hs, hlt⟩ := square_factor ha hsa
        have ha0 : a' ≠ 0 := by
          rintro rfl
          simp at e
          exact ha e
        rw [e]
        refine solInt_scale hs ?_
        refine ih (a'.natAbs + b.natAbs) (by omega) a' b ha0 hb ?_ rfl
        rw [e] at h
        exact everywhere_unscale ha0 hb hs h
    rcases le_total a.natAbs b.natAbs with hab | hab
    · exact main a b ha hb h hm hab
    · exact (main b a hb ha h.symm (by omega) hab).symm

end Eclib.Local
