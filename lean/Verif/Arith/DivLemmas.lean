import Verif.Arith.Lemmas

/-! Helper lemmas for the divisor lists and `val`. -/

namespace Eclib.Arith

/-- `val(f,n)` is the exact power of `f` dividing `n`. -/
theorem val_spec (f n : Int) (hf : 2 ≤ |f|) (hn : n ≠ 0) : Spec.ExactPower f n (val f n) := by
  have hf' : 1 < f.natAbs := by rw [Int.abs_eq_natAbs] at hf; omega
  have hn' : 0 < n.natAbs := Int.natAbs_pos.mpr hn
  obtain ⟨k, hk, h1, h2⟩ := valLoop_spec f.natAbs n.natAbs 0 hf' hn'
  unfold Spec.ExactPower val
  simp only
  rw [if_neg (by omega), hk, zero_add]
  constructor
  · rw [← Int.natAbs_dvd_natAbs, Int.natAbs_pow]; exact h1
  · rw [← Int.natAbs_dvd_natAbs, Int.natAbs_pow]; exact h2

theorem exists_prime_dvd_of_not_dvd {a b : Int} (h : ¬ a ∣ b) :
    ∃ p k, 0 < p ∧ Prime p ∧ p ^ (k + 1) ∣ a ∧ ¬ p ^ (k + 1) ∣ b := by
  by_cases hb : b = 0
  · exact absurd (hb ▸ dvd_zero a) h
  have hn : ¬ a.natAbs ∣ b.natAbs := fun hc => h (Int.natAbs_dvd_natAbs.mp hc)
  have := mt (Nat.dvd_iff_prime_pow_dvd_dvd b.natAbs a.natAbs).mpr hn
  push Not at this
  obtain ⟨p, k, hp, h1, h2⟩ := this
  cases k with
  | zero => simp at h2
  | succ k =>
    refine ⟨p, k, by exact_mod_cast hp.pos, Nat.prime_iff_prime_int.mp hp, ?_, ?_⟩
    · exact Int.natCast_dvd.mpr (by exact_mod_cast h1) |> fun h => by exact_mod_cast h
    · intro hc
      apply h2
      have := Int.natAbs_dvd_natAbs.mpr hc
      simpa [Int.natAbs_pow] using this

theorem pow_dvd_divProd {e : Int → ℕ} {ps : List Int} (hpos : ∀ p ∈ ps, 0 < p)
    (hprime : ∀ p ∈ ps, Prime p) (hnd : ps.Nodup) {p : Int} (hp : Prime p) (hp0 : 0 < p) (k : ℕ) :
    p ^ (k + 1) ∣ divProd e ps ↔ p ∈ ps ∧ k + 1 ≤ e p := by
  induction ps with
  | nil =>
    simp only [divProd, List.map_nil, List.prod_nil, List.not_mem_nil, false_and, iff_false]
    intro h
    exact hp.not_isUnit (isUnit_of_dvd_one ((dvd_pow_self p (by omega)).trans h))
  | cons q ps ih =>
    have hq0 : 0 < q := hpos q (by simp)
    have hq : Prime q := hprime q (by simp)
    have hnd' := List.nodup_cons.mp hnd
    have ih' := ih (fun r hr => hpos r (by simp [hr])) (fun r hr => hprime r (by simp [hr])) hnd'.2
    have hprod : divProd e (q :: ps) = q ^ e q * divProd e ps := by simp [divProd]
    have hcop := pairwise_coprime_of_primes hpos hprime hnd
    have hcop' := List.pairwise_cons.mp hcop
    rw [hprod]
    by_cases hpq : p = q
    · subst hpq
      have hc : IsCoprime (divProd e ps) p :=
        isCoprime_divProd fun r hr => (hcop'.1 r hr).symm
      constructor
      · intro h
        refine ⟨by simp, ?_⟩
        have h1 : p ^ (k + 1) ∣ p ^ e p := (hc.symm.pow_left).dvd_of_dvd_mul_right h
        exact (pow_dvd_pow_iff hp.ne_zero hp.not_isUnit).mp h1
      · rintro ⟨_, h⟩
        exact (pow_dvd_pow p h).mul_right _
    · have hc : IsCoprime p q := by
        refine hp.irreducible.coprime_iff_not_dvd.mpr fun hd => ?_
        rcases Int.associated_iff.mp (hp.associated_of_dvd hq hd) with h | h
        · exact hpq h
        · omega
      constructor
      · intro h
        have h1 : p ^ (k + 1) ∣ divProd e ps :=
          (IsCoprime.pow hc).dvd_of_dvd_mul_left h
        have := ih'.mp h1
        exact ⟨by simp [this.1], this.2⟩
      · rintro ⟨h1, h2⟩
        rcases List.mem_cons.mp h1 with h | h
        · exact absurd h hpq
        · exact (ih'.mpr ⟨h, h2⟩).mul_left _

theorem pow_dvd_iff_le_val {p a : Int} (hp : Prime p) (ha : a ≠ 0) (k : ℕ) :
    p ^ k ∣ a ↔ k ≤ val p a := by
  have hp2 : 2 ≤ |p| := by
    have h1 := Int.prime_iff_natAbs_prime.mp hp
    have := h1.two_le
    rw [Int.abs_eq_natAbs]; exact_mod_cast this
  obtain ⟨h1, h2⟩ := val_spec p a hp2 ha
  constructor
  · intro h
    by_contra hc
    exact h2 ((pow_dvd_pow p (by omega)).trans h)
  · intro h
    exact (pow_dvd_pow p h).trans h1

/-- `d ∣ ∏ p^(e p)` in terms of prime powers. -/
theorem dvd_divProd_iff {e : Int → ℕ} {ps : List Int} (hpos : ∀ p ∈ ps, 0 < p)
    (hprime : ∀ p ∈ ps, Prime p) (hnd : ps.Nodup) {d : Int} (_hd : d ≠ 0) :
    d ∣ divProd e ps ↔
      ∀ p k, 0 < p → Prime p → p ^ (k + 1) ∣ d → p ∈ ps ∧ k + 1 ≤ e p := by
  constructor
  · intro h p k hp0 hp hk
    exact (pow_dvd_divProd hpos hprime hnd hp hp0 k).mp (hk.trans h)
  · intro h
    by_contra hc
    obtain ⟨p, k, hp0, hp, h1, h2⟩ := exists_prime_dvd_of_not_dvd hc
    exact h2 ((pow_dvd_divProd hpos hprime hnd hp hp0 k).mpr (h p k hp0 hp h1))


theorem mem_divFold_pm {e : Int → ℕ} (ps : List Int) (d : Int) :
    d ∈ divFold e ps [1, -1] ↔ d ∈ divFold e ps [1] ∨ -d ∈ divFold e ps [1] := by
  induction ps using List.reverseRecOn generalizing d with
  | nil => simp [divFold, neg_eq_iff_eq_neg]
  | append_singleton ps p ih =>
    have hstep : ∀ l, divFold e (ps ++ [p]) l = blocks p (e p) (divFold e ps l) := by
      simp [divFold]
    simp only [hstep, mem_blocks]
    constructor
    · rintro ⟨j, hj, x, hx, rfl⟩
      rcases (ih x).mp hx with h | h
      · exact Or.inl ⟨j, hj, x, h, rfl⟩
      · exact Or.inr ⟨j, hj, -x, h, by ring⟩
    · rintro (⟨j, hj, x, hx, rfl⟩ | ⟨j, hj, x, hx, hd⟩)
      · exact ⟨j, hj, x, (ih x).mpr (Or.inl hx), rfl⟩
      · exact ⟨j, hj, -x, (ih _).mpr (Or.inr (by simpa using hx)), by linarith⟩

theorem divFold_pm_nodup {e : Int → ℕ} (ps : List Int) (hpos : ∀ p ∈ ps, 0 < p)
    (hprime : ∀ p ∈ ps, Prime p) (hco : ps.Pairwise IsCoprime) :
    (divFold e ps [1, -1]).Nodup := by
  induction ps using List.reverseRecOn with
  | nil => simp [divFold]
  | append_singleton ps p ih =>
    have hco' := List.pairwise_append.mp hco
    have h1 : ∀ q ∈ ps, 0 < q := fun q hq => hpos q (by simp [hq])
    have h2 : ∀ q ∈ ps, Prime q := fun q hq => hprime q (by simp [hq])
    have hstep : divFold e (ps ++ [p]) [1, -1] = blocks p (e p) (divFold e ps [1, -1]) := by
      simp [divFold]
    have hp : Prime p := hprime p (by simp)
    rw [hstep]
    refine blocks_nodup hp _ _ (ih h1 h2 hco'.1) ?_
    intro x hx hpx
    have hcop : IsCoprime (divProd e ps) p :=
      isCoprime_divProd fun q hq => hco'.2.2 q hq p (by simp)
    rcases (mem_divFold_pm ps x).mp hx with h | h
    · have hxd := ((mem_divFold ps h1 h2 hco'.1 x).mp h).2
      exact hp.not_isUnit (hcop.isUnit_of_dvd' (hpx.trans hxd) dvd_rfl)
    · have hxd := ((mem_divFold ps h1 h2 hco'.1 (-x)).mp h).2
      exact hp.not_isUnit (hcop.isUnit_of_dvd' (((dvd_neg).mpr hpx).trans hxd) dvd_rfl)

end Eclib.Arith
