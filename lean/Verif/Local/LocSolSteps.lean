import Verif.Local.LocSolLemmas

/-! # `lemma6`, `lemma7` and `zpsol` are right -/

namespace Eclib.LocSol

open Eclib.Local
open Eclib.Marith (val posmod legendre)

variable {p : ℕ} [hp : Fact p.Prime]

theorem solNear_of_isSq {a b c d e x : ℤ} {nu : ℕ} (h : IsSq ((gx a b c d e x : ℤ) : ℤ_[p])) :
    SolNear p a b c d e x nu := by
  refine ⟨0, ?_⟩
  rw [mul_zero, add_zero, G_int]
  exact h

theorem isSq_zero : IsSq (((0 : ℤ) : ℤ_[p])) := ⟨0, by simp⟩

theorem lemma6_spec (a b c d e x : ℤ) (nu : ℕ) :
    ∃ r, lemma6 a b c d e p nu x = some r ∧ (r = 1 ∨ r = 0 ∨ r = -1) ∧
      (r = 1 → SolNear p a b c d e x nu) ∧
      (p ≠ 2 → r = -1 → ¬ SolNear p a b c d e x nu) ∧
      (r = 0 → (p : ℤ) ^ nu ∣ gx a b c d e x ∧ (p : ℤ) ^ nu ∣ gdashx a b c d x) := by
  obtain ⟨s, hs, hs'⟩ := psquare_spec (p := p) (gx a b c d e x)
  unfold lemma6
  rw [hs]
  cases s with
  | true => exact ⟨1, rfl, by simp, fun _ => solNear_of_isSq (hs'.mp rfl), by simp, by simp⟩
  | false =>
    have hnsq : ¬ IsSq ((gx a b c d e x : ℤ) : ℤ_[p]) := by
      rw [← hs']; simp
    have hg0 : gx a b c d e x ≠ 0 := by
      intro h
      rw [h] at hnsq
      exact hnsq isSq_zero
    obtain ⟨u, hu, hpu⟩ := val_factor (p := p) hg0
    have hun : ((gx a b c d e x : ℤ) : ℤ_[p]) = (p : ℤ_[p]) ^ val p (gx a b c d e x) * (u : ℤ_[p]) := by
      conv_lhs => rw [hu]
      push_cast
      rfl
    refine ⟨_, rfl, ?_⟩
    unfold lemma6Tail
    generalize hl : val p (gx a b c d e x) = l at hu hun
    -- the negative answers
    have neg : ∀ m : ℕ, m ≤ 2 * nu → (p : ℤ) ^ m ∣ (p : ℤ) ^ nu * gdashx a b c d x → l < m →
        p ≠ 2 → ¬ SolNear p a b c d e x nu := by
      rintro m h1 h2 h3 hp2 ⟨t, ht⟩
      obtain ⟨s, hs⟩ := G_congr (e := e) h1 h2 t
      rw [hs, hun] at ht
      exact nonsq_odd hp2 hpu h3 (hun ▸ hnsq) s ht
    simp only
    by_cases hd : gdashx a b c d x = 0
    · rw [if_pos hd]
      by_cases h1 : (l : ℤ) ≥ 2 * nu
      · rw [if_pos h1]
        refine ⟨by simp, by simp, by simp, fun _ => ⟨?_, by rw [hd]; exact dvd_zero _⟩⟩
        rw [hu]
        exact Dvd.dvd.mul_right (pow_dvd_pow _ (by omega)) _
      · rw [if_neg h1]
        refine ⟨by simp, by simp, fun hp2 _ => neg (2 * nu) le_rfl (by rw [hd]; simp) (by omega) hp2,
          by simp⟩
    · rw [if_neg hd]
      obtain ⟨w, hw, hpw⟩ := val_factor (p := p) hd
      generalize val p (gdashx a b c d x) = mu at hw ⊢
      by_cases h1 : (l : ℤ) - mu ≥ nu ∧ (nu : ℤ) > mu
      · rw [if_pos h1]
        refine ⟨by simp, fun _ => ?_, by simp, by simp⟩
        obtain ⟨k, hk⟩ := Nat.exists_eq_add_of_le (show mu + nu ≤ l by omega)
        obtain ⟨t, ht⟩ := G_surj (e := e) hw hpw (show mu < nu by omega) (y := 0)
          (r := (p : ℤ) ^ k * u) (by rw [hu, hk, pow_add]; ring)
        exact ⟨t, by rw [ht]; exact isSq_zero⟩
      · rw [if_neg h1]
        by_cases h2 : (l : ℤ) ≥ 2 * nu ∧ (mu : ℤ) ≥ nu
        · rw [if_pos h2]
          refine ⟨by simp, by simp, by simp, fun _ => ⟨?_, ?_⟩⟩
          · rw [hu]
            exact Dvd.dvd.mul_right (pow_dvd_pow _ (by omega)) _
          · rw [hw]
            exact Dvd.dvd.mul_right (pow_dvd_pow _ (by omega)) _
        · rw [if_neg h2]
          refine ⟨by simp, by simp, fun hp2 _ => ?_, by simp⟩
          rcases Nat.lt_or_ge mu nu with h3 | h3
          · refine neg (mu + nu) (by omega) ?_ (by omega) hp2
            rw [hw]
            exact ⟨w, by rw [pow_add]; ring⟩
          · refine neg (2 * nu) le_rfl ?_ (by omega) hp2
            rw [hw, two_mul, pow_add]
            exact mul_dvd_mul_left _ (Dvd.dvd.mul_right (pow_dvd_pow _ h3) _)

theorem oddPart_pow (l : ℕ) {u : ℤ} (hu : ¬ (2 : ℤ) ∣ u) : oddPart (2 ^ l * u) = u := by
  induction l with
  | zero =>
    rw [oddPart, dif_neg]
    · simp
    · rintro ⟨-, h⟩
      rw [pow_zero, one_mul] at h
      exact hu (Int.dvd_of_fmod_eq_zero h)
  | succ l ih =>
    have e : (2 : ℤ) ^ (l + 1) * u = 2 * (2 ^ l * u) := by ring
    have hu0 : u ≠ 0 := by rintro rfl; simp at hu
    rw [oddPart, dif_pos, e, Int.mul_fdiv_cancel_left _ (by decide), ih]
    exact ⟨by positivity, by rw [e]; exact Int.fmod_eq_zero_of_dvd (Dvd.intro _ rfl)⟩

theorem lemma7_spec (a b c d e x : ℤ) (nu : ℕ) :
    ∃ r, lemma7 a b c d e 2 nu x = some r ∧ (r = 1 ∨ r = 0 ∨ r = -1) ∧
      (r = 1 → SolNear 2 a b c d e x nu) ∧
      (r = -1 → ¬ SolNear 2 a b c d e x nu) ∧
      (r = 0 → (2 : ℤ) ^ (nu - 1) ∣ gx a b c d e x ∧ (2 : ℤ) ^ (nu - 1) ∣ gdashx a b c d x) := by
  obtain ⟨s, hs, hs'⟩ := psquare_spec (p := 2) (gx a b c d e x)
  unfold lemma7
  have hs2 : psquare (gx a b c d e x) 2 = some s := by exact_mod_cast hs
  rw [hs2]
  cases s with
  | true => exact ⟨1, rfl, by simp, fun _ => solNear_of_isSq (hs'.mp rfl), by simp, by simp⟩
  | false =>
    have hnsq : ¬ IsSq ((gx a b c d e x : ℤ) : ℤ_[2]) := by
      rw [← hs']; simp
    have hg0 : gx a b c d e x ≠ 0 := by
      intro h
      rw [h] at hnsq
      exact hnsq isSq_zero
    obtain ⟨u, hu, hpu⟩ := val_factor (p := 2) hg0
    push_cast at hu hpu
    have hun : ((gx a b c d e x : ℤ) : ℤ_[2]) = (2 : ℤ_[2]) ^ val 2 (gx a b c d e x) * (u : ℤ_[2]) := by
      conv_lhs => rw [hu]
      push_cast
      rfl
    have hodd : oddPart (gx a b c d e x) = u := by
      rw [hu]; exact oddPart_pow _ hpu
    refine ⟨_, rfl, ?_⟩
    unfold lemma7Tail
    generalize hl : val 2 (gx a b c d e x) = l at hu hun
    have hnsq' := hnsq
    rw [hun] at hnsq'
    -- the negative answers
    have neg : ∀ m : ℕ, m ≤ 2 * nu → (2 : ℤ) ^ m ∣ (2 : ℤ) ^ nu * gdashx a b c d x → l < m →
        ¬ (l % 2 = 0 ∧ l + 1 = m) → ¬ (l % 2 = 0 ∧ l + 2 = m ∧ u % 4 = 1) →
        ¬ SolNear 2 a b c d e x nu := by
      rintro m h1 h2 h3 h4 h5 ⟨t, ht⟩
      obtain ⟨s, hs⟩ := G_congr (p := 2) (e := e) h1 (by exact_mod_cast h2) t
      rw [hs, hun] at ht
      exact nonsq_two hpu h3 hnsq' h4 h5 s ht
    -- the positive answers
    simp only [if_neg hg0, hodd, Eclib.Marith.posmod_pos u 4 (by norm_num)]
    by_cases hd : gdashx a b c d x = 0
    · rw [if_pos hd]
      by_cases h1 : (l : ℤ) ≥ 2 * nu
      · rw [if_pos h1]
        refine ⟨by simp, by simp, by simp, fun _ => ⟨?_, by rw [hd]; exact dvd_zero _⟩⟩
        rw [hu]
        exact Dvd.dvd.mul_right (pow_dvd_pow _ (by omega)) _
      · rw [if_neg h1]
        by_cases h2 : (l : ℤ) = 2 * nu - 2 ∧ u % 4 = 1
        · rw [if_pos h2]
          refine ⟨by simp, by simp, by simp, fun _ => ⟨?_, by rw [hd]; exact dvd_zero _⟩⟩
          rw [hu]
          exact Dvd.dvd.mul_right (pow_dvd_pow _ (by omega)) _
        · rw [if_neg h2]
          refine ⟨by simp, by simp, fun _ => neg (2 * nu) le_rfl (by rw [hd]; simp) (by omega)
            (by omega) (by omega), by simp⟩
    · rw [if_neg hd]
      obtain ⟨w, hw, hpw⟩ := val_factor (p := 2) hd
      push_cast at hw hpw
      generalize val 2 (gdashx a b c d x) = mu at hw ⊢
      have hval : ∀ y r : ℤ, mu < nu → gx a b c d e x = y + (2 : ℤ) ^ (mu + nu) * r →
          IsSq ((y : ℤ) : ℤ_[2]) → SolNear 2 a b c d e x nu := by
        intro y r h1 h2 h3
        obtain ⟨t, ht⟩ := G_surj (p := 2) (e := e) (by exact_mod_cast hw) (by exact_mod_cast hpw) h1
          (y := y) (r := r) (by exact_mod_cast h2)
        exact ⟨t, by rw [ht]; exact h3⟩
      have hsq : l % 2 = 0 → IsSq (((2 : ℤ) ^ l : ℤ) : ℤ_[2]) := by
        intro h
        refine ⟨2 ^ (l / 2), ?_⟩
        push_cast
        rw [← pow_mul]
        congr 1
        omega
      by_cases h1 : (l : ℤ) - mu ≥ nu ∧ (nu : ℤ) > mu
      · rw [if_pos h1]
        refine ⟨by simp, fun _ => ?_, by simp, by simp⟩
        obtain ⟨k, hk⟩ := Nat.exists_eq_add_of_le (show mu + nu ≤ l by omega)
        exact hval 0 ((2 : ℤ) ^ k * u) (by omega) (by rw [hu, hk, pow_add]; ring) isSq_zero
      rw [if_neg h1]
      by_cases h2 : (nu : ℤ) > mu ∧ (l : ℤ) = mu + nu - 1 ∧ (l : ℤ) % 2 = 0
      · rw [if_pos h2]
        refine ⟨by simp, fun _ => ?_, by simp, by simp⟩
        refine hval (2 ^ l) (u / 2) (by omega) ?_ (hsq (by omega))
        have e1 : mu + nu = l + 1 := by omega
        have e2 : u = 1 + 2 * (u / 2) := by omega
        rw [hu, e1, pow_succ]
        linear_combination 2 ^ l * e2
      rw [if_neg h2]
      by_cases h3 : (nu : ℤ) > mu ∧ (l : ℤ) = mu + nu - 2 ∧ (l : ℤ) % 2 = 0 ∧ u % 4 = 1
      · rw [if_pos h3]
        refine ⟨by simp, fun _ => ?_, by simp, by simp⟩
        refine hval (2 ^ l) (u / 4) (by omega) ?_ (hsq (by omega))
        have e1 : mu + nu = l + 2 := by omega
        have e2 : u = 1 + 4 * (u / 4) := by omega
        rw [hu, e1, pow_add]
        linear_combination 2 ^ l * e2
      rw [if_neg h3]
      by_cases h4 : (mu : ℤ) ≥ nu ∧ (l : ℤ) ≥ 2 * nu
      · rw [if_pos h4]
        refine ⟨by simp, by simp, by simp, fun _ => ⟨?_, ?_⟩⟩
        · rw [hu]
          exact Dvd.dvd.mul_right (pow_dvd_pow _ (by omega)) _
        · rw [hw]
          exact Dvd.dvd.mul_right (pow_dvd_pow _ (by omega)) _
      rw [if_neg h4]
      by_cases h5 : (mu : ℤ) ≥ nu ∧ (l : ℤ) = 2 * nu - 2 ∧ u % 4 = 1
      · rw [if_pos h5]
        refine ⟨by simp, by simp, by simp, fun _ => ⟨?_, ?_⟩⟩
        · rw [hu]
          exact Dvd.dvd.mul_right (pow_dvd_pow _ (by omega)) _
        · rw [hw]
          exact Dvd.dvd.mul_right (pow_dvd_pow _ (by omega)) _
      rw [if_neg h5]
      refine ⟨by simp, by simp, fun _ => ?_, by simp⟩
      rcases Nat.lt_or_ge mu nu with h6 | h6
      · refine neg (mu + nu) (by omega) ?_ (by omega) (by omega) (by omega)
        rw [hw]
        exact ⟨w, by rw [pow_add]; ring⟩
      · refine neg (2 * nu) le_rfl ?_ (by omega) (by omega) (by omega)
        rw [hw, two_mul, pow_add]
        exact mul_dvd_mul_left _ (Dvd.dvd.mul_right (pow_dvd_pow _ h6) _)

end Eclib.LocSol
