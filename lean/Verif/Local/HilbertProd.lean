import Verif.Local.HilbertGlobal
import Mathlib.NumberTheory.LegendreSymbol.QuadraticReciprocity
import Mathlib.Tactic.NormNum.Prime
import Mathlib.Algebra.BigOperators.Group.Finset.Basic
import Mathlib.Data.Nat.Factorization.Induction

/-!
# The product formula, and `global_hilbert`
-/

namespace Eclib.Local

/-! ### values of the symbol at pairs of basis elements -/

theorem hz_not_prime {p : ℕ} (h : ¬ p.Prime) (a b : ℤ) : hz p a b = 0 := by simp [hz, h]

theorem hz_of_solInt {a b : ℤ} (h : SolInt a b) (p : ℕ) : hz p a b = 0 := by
  by_cases hp : p.Prime
  · have : Fact p.Prime := ⟨hp⟩
    exact hz_eq_zero.mpr (h.local p)
  · exact hz_not_prime hp a b

theorem hr_of_solInt {a b : ℤ} (h : SolInt a b) : hr a b = 0 := hr_eq_zero.mpr h.real

theorem hz_units {p : ℕ} (hp2 : p ≠ 2) {a b : ℤ} (ha : ¬ (p : ℤ) ∣ a) (hb : ¬ (p : ℤ) ∣ b) :
    hz p a b = 0 := by
  by_cases hp : p.Prime
  · have : Fact p.Prime := ⟨hp⟩
    exact hz_eq_zero.mpr (sol_odd_units hp2 ha hb)
  · exact hz_not_prime hp a b

/-- a truth value modulo two -/
def bz (b : Bool) : ZMod 2 := if b then 1 else 0

theorem zmod_two_eq {x : ZMod 2} {b : Bool} (h : x = 0 ↔ b = false) : x = bz b := by
  cases b
  · simpa [bz] using h
  · simp only [reduceCtorEq, iff_false] at h
    simp only [bz, if_true]
    revert h
    revert x
    decide

theorem hz_odd {q : ℕ} [hq : Fact q.Prime] (hq2 : q ≠ 2) {v : ℤ} (hv : ¬ (q : ℤ) ∣ v) :
    hz q (q : ℤ) v = bz (nonres q v) := by
  apply zmod_two_eq
  rw [hz_eq_zero]
  have := sol_odd_left (p := q) hq2 (u := 1) (v := v) (by
    intro h
    have := Int.natAbs_dvd_natAbs.mpr h
    simp at this
    exact hq.out.one_lt.ne' this) hv
  rw [mul_one] at this
  rw [this, ← Bool.not_eq_true, nonres_iff, not_not]

theorem hz_two_units {u v : ℤ} (hu : ¬ (2 : ℤ) ∣ u) (hv : ¬ (2 : ℤ) ∣ v) :
    hz 2 u v = bz (e4 u && e4 v) := by
  apply zmod_two_eq
  rw [hz_eq_zero, sol_two_units hu hv]
  simp [e4]

theorem hz_two_two {v : ℤ} (hv : ¬ (2 : ℤ) ∣ v) : hz 2 2 v = bz (o8 v) := by
  apply zmod_two_eq
  rw [hz_eq_zero]
  have := sol_two_left (u := 1) (v := v) (by norm_num) hv
  rw [mul_one] at this
  rw [this]
  simp only [o8, Bool.or_eq_false_iff, beq_eq_false_iff_ne]
  omega

theorem hr_pos {a b : ℤ} (ha : 0 < a) (hb : b ≠ 0) : hr a b = 0 :=
  hr_eq_zero.mpr ((solReal_iff ha.ne' hb).mpr (Or.inl ha))

/-! ### the sum over all places below a bound -/

/-- the sum of the symbols at the primes below `M` and at infinity -/
noncomputable def total (M : ℕ) (a b : ℤ) : ZMod 2 := (∑ p ∈ Finset.range M, hz p a b) + hr a b

theorem total_mul (M : ℕ) {a a' b : ℤ} (ha : a ≠ 0) (ha' : a' ≠ 0) (hb : b ≠ 0) :
    total M (a * a') b = total M a b + total M a' b := by
  simp only [total, hz_mul _ ha ha' hb, hr_mul ha ha' hb, Finset.sum_add_distrib]
  ring

theorem total_symm (M : ℕ) {a b : ℤ} (ha : a ≠ 0) (hb : b ≠ 0) : total M a b = total M b a := by
  simp only [total, hr_symm ha hb]
  congr 1
  exact Finset.sum_congr rfl fun p _ => hz_symm p a b

theorem total_of_solInt (M : ℕ) {a b : ℤ} (h : SolInt a b) : total M a b = 0 := by
  simp only [total, hr_of_solInt h, hz_of_solInt h, Finset.sum_const_zero, add_zero]

theorem sum_support {M : ℕ} (s : Finset ℕ) (hs : ∀ p ∈ s, p < M) {f : ℕ → ZMod 2}
    (hf : ∀ p, p ∉ s → f p = 0) : ∑ p ∈ Finset.range M, f p = ∑ p ∈ s, f p := by
  symm
  exact Finset.sum_subset (fun p hp => Finset.mem_range.mpr (hs p hp)) fun p _ hp => hf p hp

theorem not_dvd_one_neg {p : ℕ} (hp : p.Prime) : ¬ (p : ℤ) ∣ -1 := by
  have : Fact p.Prime := ⟨hp⟩
  exact not_dvd_neg_one

theorem prime_not_dvd {p q : ℕ} (hp : p.Prime) (hq : q.Prime) (h : p ≠ q) : ¬ (p : ℤ) ∣ (q : ℤ) := by
  intro hd
  exact h ((Nat.prime_dvd_prime_iff_eq hp hq).mp (Int.natCast_dvd_natCast.mp hd))

theorem bz_self (b : Bool) : bz b + bz b = 0 := by cases b <;> decide

/-- the symbol of two units at an arbitrary place other than `2` -/
theorem hz_off {p : ℕ} {a b : ℤ} (hp2 : p ≠ 2) (ha : p.Prime → ¬ (p : ℤ) ∣ a)
    (hb : p.Prime → ¬ (p : ℤ) ∣ b) : hz p a b = 0 := by
  by_cases hp : p.Prime
  · exact hz_units hp2 (ha hp) (hb hp)
  · exact hz_not_prime hp a b

theorem total_neg_neg {M : ℕ} (hM : 2 < M) : total M (-1) (-1) = 0 := by
  rw [total, sum_support {2} (by simpa using hM)]
  · rw [Finset.sum_singleton, hz_two_units (by norm_num) (by norm_num)]
    have : ¬ SolReal (-1) (-1) := by
      rw [solReal_iff (by norm_num) (by norm_num)]
      norm_num
    rw [hr, if_neg this]
    decide
  · intro p hp
    have hp' : p ≠ 2 := by simpa using hp
    exact hz_off hp' not_dvd_one_neg not_dvd_one_neg

theorem total_neg_two {M : ℕ} : total M (-1) 2 = 0 :=
  total_of_solInt M ⟨1, 1, 1, by simp, by norm_num⟩

theorem odd_prime_not_two_dvd {q : ℕ} (hq : q.Prime) (hq2 : q ≠ 2) : ¬ (2 : ℤ) ∣ (q : ℤ) :=
  prime_not_dvd Nat.prime_two hq (Ne.symm hq2)

theorem total_neg_odd {M q : ℕ} (hq : q.Prime) (hq2 : q ≠ 2) (hM : 2 < M) (hqM : q < M) :
    total M (q : ℤ) (-1) = 0 := by
  have hf : Fact q.Prime := ⟨hq⟩
  rw [total, sum_support {2, q}]
  · rw [Finset.sum_pair (Ne.symm hq2), hz_two_units (odd_prime_not_two_dvd hq hq2) (by norm_num),
      hz_odd hq2 not_dvd_neg_one, hr_pos (by exact_mod_cast hq.pos) (by norm_num), nonres_neg_one hq2]
    have : (e4 (q : ℤ) && e4 (-1)) = (q % 4 == 3) := by
      rw [Bool.eq_iff_iff]
      simp only [e4, Bool.and_eq_true, beq_iff_eq]
      omega
    rw [this, bz_self, add_zero]
  · intro p hp
    simp only [Finset.mem_insert, Finset.mem_singleton] at hp
    omega
  · intro p hp
    simp only [Finset.mem_insert, Finset.mem_singleton, not_or] at hp
    exact hz_off hp.1 (fun h => prime_not_dvd h hq hp.2) not_dvd_one_neg

theorem total_two_odd {M q : ℕ} (hq : q.Prime) (hq2 : q ≠ 2) (hM : 2 < M) (hqM : q < M) :
    total M (q : ℤ) 2 = 0 := by
  have hf : Fact q.Prime := ⟨hq⟩
  have h2 : ¬ (q : ℤ) ∣ 2 := prime_not_dvd hq Nat.prime_two hq2
  rw [total, sum_support {2, q}]
  · rw [Finset.sum_pair (Ne.symm hq2), hz_symm 2, hz_two_two (odd_prime_not_two_dvd hq hq2),
      hz_odd hq2 h2, hr_pos (by exact_mod_cast hq.pos) (by norm_num)]
    have : nonres q 2 = o8 (q : ℤ) := by
      rw [nonres]
      have hodd : Odd q := hq.odd_of_ne_two hq2
      have h1 := jacobiSym.at_two hodd
      rw [h1, ZMod.χ₈_nat_eq_if_mod_eight]
      have : q % 2 = 1 := Nat.odd_iff.mp hodd
      rw [Bool.eq_iff_iff]
      simp only [o8, Bool.or_eq_true, beq_iff_eq]
      split_ifs <;> simp <;> omega
    rw [this, bz_self, add_zero]
  · intro p hp
    simp only [Finset.mem_insert, Finset.mem_singleton] at hp
    omega
  · intro p hp
    simp only [Finset.mem_insert, Finset.mem_singleton, not_or] at hp
    exact hz_off hp.1 (fun h => prime_not_dvd h hq hp.2)
      (fun h => by exact_mod_cast prime_not_dvd h Nat.prime_two hp.1)

/-- quadratic reciprocity in the form needed -/
theorem reciprocity {q r : ℕ} (hq : q.Prime) (hr : r.Prime) (hq2 : q ≠ 2) (hr2 : r ≠ 2) (hqr : q ≠ r) :
    ((e4 (q : ℤ) && e4 (r : ℤ)).xor (nonres q r)).xor (nonres r q) = false := by
  have oq : Odd q := hq.odd_of_ne_two hq2
  have orr : Odd r := hr.odd_of_ne_two hr2
  have hq' : q % 2 = 1 := Nat.odd_iff.mp oq
  have hr' : r % 2 = 1 := Nat.odd_iff.mp orr
  have n1 : jacobiSym (r : ℤ) q = 1 ∨ jacobiSym (r : ℤ) q = -1 := by
    apply jacobiSym.eq_one_or_neg_one
    rw [Int.gcd_natCast_natCast]
    exact (Nat.coprime_primes hr hq).mpr (Ne.symm hqr)
  rw [nonres, nonres]
  by_cases h : q % 4 = 3 ∧ r % 4 = 3
  · have e1 : (e4 (q : ℤ) && e4 (r : ℤ)) = true := by
      simp only [e4, Bool.and_eq_true, beq_iff_eq]
      omega
    rw [e1, jacobiSym.quadratic_reciprocity_three_mod_four h.1 h.2]
    rcases n1 with n1 | n1 <;> rw [n1] <;> rfl
  · have e1 : (e4 (q : ℤ) && e4 (r : ℤ)) = false := by
      rw [← Bool.not_eq_true]
      simp only [e4, Bool.and_eq_true, beq_iff_eq]
      omega
    have e2 : jacobiSym (q : ℤ) r = jacobiSym (r : ℤ) q := by
      rcases (show q % 4 = 1 ∨ r % 4 = 1 by omega) with h | h
      · exact jacobiSym.quadratic_reciprocity_one_mod_four h orr
      · exact (jacobiSym.quadratic_reciprocity_one_mod_four h oq).symm
    rw [e1, e2]
    rcases n1 with n1 | n1 <;> rw [n1] <;> rfl

theorem bz_sum (a b c : Bool) : bz a + (bz b + bz c) = bz ((a.xor b).xor c) := by
  cases a <;> cases b <;> cases c <;> decide

theorem total_odd_odd {M q r : ℕ} (hq : q.Prime) (hr : r.Prime) (hq2 : q ≠ 2) (hr2 : r ≠ 2)
    (hqr : q ≠ r) (hM : 2 < M) (hqM : q < M) (hrM : r < M) : total M (q : ℤ) (r : ℤ) = 0 := by
  have hf : Fact q.Prime := ⟨hq⟩
  have hf' : Fact r.Prime := ⟨hr⟩
  have h20 : (2 : ℕ) ∉ ({q, r} : Finset ℕ) := by simp [Ne.symm hq2, Ne.symm hr2]
  rw [total, sum_support {2, q, r}]
  · rw [Finset.sum_insert h20, Finset.sum_pair hqr,
      hz_two_units (odd_prime_not_two_dvd hq hq2) (odd_prime_not_two_dvd hr hr2),
      hz_odd hq2 (prime_not_dvd hq hr hqr), hz_symm r, hz_odd hr2 (prime_not_dvd hr hq (Ne.symm hqr)),
      hr_pos (by exact_mod_cast hq.pos) (by exact_mod_cast hr.ne_zero), bz_sum,
      reciprocity hq hr hq2 hr2 hqr]
    decide
  · intro p hp
    simp only [Finset.mem_insert, Finset.mem_singleton] at hp
    omega
  · intro p hp
    simp only [Finset.mem_insert, Finset.mem_singleton, not_or] at hp
    exact hz_off hp.1 (fun h => prime_not_dvd h hq hp.2.1) (fun h => prime_not_dvd h hr hp.2.2)

theorem total_self {M q : ℕ} (hq : q.Prime) (hM : 2 < M) (hqM : q < M) : total M (q : ℤ) (q : ℤ) = 0 := by
  have hq0 : (q : ℤ) ≠ 0 := by exact_mod_cast hq.ne_zero
  have h1 : total M (q : ℤ) (-(q : ℤ)) = 0 := total_of_solInt M ⟨1, 1, 0, by simp, by ring⟩
  have h2 : total M (q : ℤ) (-1) = 0 := by
    by_cases hq2 : q = 2
    · subst hq2
      rw [total_symm M (by norm_num) (by norm_num)]
      exact total_neg_two
    · exact total_neg_odd hq hq2 hM hqM
  have e : -(q : ℤ) = (-1) * q := by ring
  rw [e, total_symm M hq0 (by simpa using hq.ne_zero), total_mul M (by norm_num) hq0 hq0,
    total_symm M (by norm_num) hq0, h2, zero_add] at h1
  exact h1

/-- generators -/
def Gen (M : ℕ) (s : ℤ) : Prop := s = -1 ∨ ∃ q : ℕ, q.Prime ∧ q < M ∧ s = q

theorem Gen.ne_zero {M : ℕ} {s : ℤ} (h : Gen M s) : s ≠ 0 := by
  rcases h with rfl | ⟨q, hq, -, rfl⟩
  · norm_num
  · exact_mod_cast hq.ne_zero

theorem total_neg_prime {M q : ℕ} (hq : q.Prime) (hM : 2 < M) (hqM : q < M) :
    total M (q : ℤ) (-1) = 0 := by
  by_cases hq2 : q = 2
  · subst hq2
    rw [total_symm M (by norm_num) (by norm_num)]
    exact total_neg_two
  · exact total_neg_odd hq hq2 hM hqM

theorem total_gen {M : ℕ} (hM : 2 < M) {s t : ℤ} (hs : Gen M s) (ht : Gen M t) : total M s t = 0 := by
  rcases hs with rfl | ⟨q, hq, hqM, rfl⟩ <;> rcases ht with rfl | ⟨r, hr, hrM, rfl⟩
  · exact total_neg_neg hM
  · rw [total_symm M (by norm_num) (by exact_mod_cast hr.ne_zero)]
    exact total_neg_prime hr hM hrM
  · exact total_neg_prime hq hM hqM
  · by_cases hqr : q = r
    · subst hqr
      exact total_self hq hM hqM
    · by_cases hq2 : q = 2
      · subst hq2
        rw [total_symm M (by norm_num) (by exact_mod_cast hr.ne_zero)]
        exact total_two_odd hr (Ne.symm hqr) hM hrM
      · by_cases hr2 : r = 2
        · subst hr2
          exact total_two_odd hq hq2 hM hqM
        · exact total_odd_odd hq hr hq2 hr2 hqr hM hqM hrM

/-- every non-zero integer whose prime factors are below `M` is a product of generators -/
theorem gen_induction {M : ℕ} {P : ℤ → Prop} (h1 : P 1) (hmul : ∀ s a : ℤ, Gen M s → a ≠ 0 → P a → P (s * a))
    (a : ℤ) (ha : a ≠ 0) (hM : ∀ p : ℕ, p.Prime → (p : ℤ) ∣ a → p < M) : P a := by
  have key : ∀ n : ℕ, n ≠ 0 → (∀ p : ℕ, p.Prime → p ∣ n → p < M) → P n := by
    intro n
    induction n using Nat.strong_induction_on with
    | _ n ih =>
      intro hn hM
      by_cases h : n = 1
      · subst h
        exact_mod_cast h1
      · have hp := Nat.minFac_prime h
        obtain ⟨m, hm⟩ := Nat.minFac_dvd n
        generalize n.minFac = p at hp hm
        have hm0 : m ≠ 0 := by
          rintro rfl
          exact hn (by rw [hm, mul_zero])
        have hlt : m < n := by
          rw [hm]
          nlinarith [hp.two_le, Nat.pos_of_ne_zero hm0]
        rw [hm]
        push_cast
        exact hmul p m (Or.inr ⟨p, hp, hM p hp ⟨m, hm⟩, rfl⟩) (by exact_mod_cast hm0)
          (ih m hlt hm0 fun q hq hqm => hM q hq (hqm.trans ⟨p, by rw [hm]; ring⟩))
  have h2 := key a.natAbs (Int.natAbs_ne_zero.mpr ha) fun p hp hpd => hM p hp (Int.natCast_dvd.mpr hpd)
  rcases Int.natAbs_eq a with h | h
  · rwa [h]
  · rw [h]
    have := hmul (-1) (a.natAbs : ℤ) (Or.inl rfl) (by exact_mod_cast Int.natAbs_ne_zero.mpr ha) h2
    rwa [neg_one_mul] at this

/-- **The product formula**: for non-zero `a`, `b`, the number of places (primes below `M`, and
infinity) at which `a x^2 + b y^2 = z^2` is insoluble is even, if `2` and the primes dividing `a b`
are below `M`. -/
theorem product_formula {M : ℕ} (hM : 2 < M) {a b : ℤ} (ha : a ≠ 0) (hb : b ≠ 0)
    (hMa : ∀ p : ℕ, p.Prime → (p : ℤ) ∣ a → p < M) (hMb : ∀ p : ℕ, p.Prime → (p : ℤ) ∣ b → p < M) :
    total M a b = 0 := by
  have hone : ∀ c : ℤ, total M 1 c = 0 := fun c => total_of_solInt M ⟨1, 0, 1, by simp, by ring⟩
  have hgen : ∀ s : ℤ, Gen M s → total M s b = 0 := by
    intro s hs
    refine gen_induction (M := M) (P := fun b => total M s b = 0) ?_ ?_ b hb hMb
    · rw [total_symm M hs.ne_zero one_ne_zero]
      exact hone s
    · intro t c ht hc h
      rw [total_symm M hs.ne_zero (mul_ne_zero ht.ne_zero hc), total_mul M ht.ne_zero hc hs.ne_zero,
        total_symm M ht.ne_zero hs.ne_zero, total_symm M hc hs.ne_zero, h, total_gen hM hs ht, add_zero]
  refine gen_induction (M := M) (P := fun a => total M a b = 0) (hone b) ?_ a ha hMa
  intro s c hs hc h
  rw [total_mul M hs.ne_zero hc hb, h, hgen s hs, add_zero]

/-- solubility at infinity and at every odd prime implies solubility at two -/
theorem everywhere_of_odd {a b : ℤ} (ha : a ≠ 0) (hb : b ≠ 0) (h0 : SolReal a b)
    (h : ∀ p : ℕ, ∀ hp : p.Prime, p ≠ 2 → @Sol p ⟨hp⟩ a b) : Everywhere a b := by
  rw [everywhere_iff]
  have h1 : ∀ p, p ≠ 2 → hz p a b = 0 := by
    intro p hp2
    by_cases hp : p.Prime
    · exact (@hz_eq_zero p ⟨hp⟩ a b).mpr (h p hp hp2)
    · exact hz_not_prime hp a b
  refine ⟨hr_eq_zero.mpr h0, fun p => ?_⟩
  by_cases hp2 : p = 2
  · subst hp2
    have := product_formula (M := a.natAbs + b.natAbs + 3) (by omega) ha hb
      (fun p _ hpd => by
        have := Nat.le_of_dvd (Int.natAbs_pos.mpr ha) (Int.natCast_dvd.mp hpd)
        omega)
      (fun p _ hpd => by
        have := Nat.le_of_dvd (Int.natAbs_pos.mpr hb) (Int.natCast_dvd.mp hpd)
        omega)
    rw [total, sum_support {2} (by simp), hr_eq_zero.mpr h0, add_zero, Finset.sum_singleton] at this
    · exact this
    · intro p hp
      exact h1 p (by simpa using hp)
  · exact h1 p hp2

/-! ### the program -/

/-- what `any_of` finds -/
theorem anyBad_spec {a b : ℤ} (ha : a ≠ 0) (hb : b ≠ 0) : ∀ (ps : List ℤ) (bp : ℤ),
    (∀ p ∈ ps, p ≤ 0 ∨ Prime p) → ∃ h bp', anyBad a b ps bp = some (h, bp') ∧
      (h = 0 ∧ (∀ p ∈ ps, localHilbert a b p = some 0) ∨
        h = 1 ∧ bp' ∈ ps ∧ localHilbert a b bp' = some 1) := by
  intro ps
  induction ps with
  | nil => intro bp _; exact ⟨0, bp, rfl, Or.inl ⟨rfl, by simp⟩⟩
  | cons p ps ih =>
    intro bp hps
    have hv : ∃ h : ℤ, localHilbert a b p = some h ∧ (h = 0 ∨ h = 1) := by
      rcases hps p (by simp) with h | h
      · obtain ⟨k, e1, e2, -⟩ := C45_real ha hb h
        exact ⟨k, e1, e2⟩
      · rcases le_total 0 p with h0 | h0
        · lift p to ℕ using h0
          have : Fact p.Prime := ⟨Nat.prime_iff_prime_int.mpr h⟩
          obtain ⟨k, e1, e2, -⟩ := C45_local (p := p) ha hb
          exact ⟨k, e1, e2⟩
        · obtain ⟨k, e1, e2, -⟩ := C45_real ha hb h0
          exact ⟨k, e1, e2⟩
    obtain ⟨k, e1, rfl | rfl⟩ := hv
    · obtain ⟨h, bp', f1, f2⟩ := ih p fun q hq => hps q (List.mem_cons_of_mem _ hq)
      refine ⟨h, bp', by simp only [anyBad, e1, f1], ?_⟩
      rcases f2 with ⟨g1, g2⟩ | ⟨g1, g2, g3⟩
      · refine Or.inl ⟨g1, fun q hq => ?_⟩
        rcases List.mem_cons.mp hq with rfl | hq
        · exact e1
        · exact g2 q hq
      · exact Or.inr ⟨g1, List.mem_cons_of_mem _ g2, g3⟩
    · exact ⟨1, p, by simp only [anyBad, e1], Or.inr ⟨rfl, by simp, e1⟩⟩

/-- the place named by `badp`: `0` (or anything not positive) is the infinite place -/
def SolAt (q a b : ℤ) : Prop :=
  (q ≤ 0 → SolReal a b) ∧ ∀ p : ℕ, ∀ hp : p.Prime, q = p → @Sol p ⟨hp⟩ a b

theorem not_solAt_iff {a b q : ℤ} (ha : a ≠ 0) (hb : b ≠ 0) (hq : q ≤ 0 ∨ Prime q) :
    localHilbert a b q = some 0 ↔ SolAt q a b := by
  by_cases h0 : q ≤ 0
  · obtain ⟨k, e1, -, e3⟩ := C45_real ha hb h0
    rw [e1, Option.some.injEq, e3]
    refine ⟨fun h => ⟨fun _ => h, fun p hp hqp => ?_⟩, fun h => h.1 h0⟩
    have : 0 < (p : ℤ) := by exact_mod_cast hp.pos
    omega
  · have hpr := hq.resolve_left h0
    lift q to ℕ using by omega
    have hp : q.Prime := Nat.prime_iff_prime_int.mpr hpr
    have hf : Fact q.Prime := ⟨hp⟩
    obtain ⟨k, e1, -, e3⟩ := C45_local (p := q) ha hb
    rw [e1, Option.some.injEq, e3]
    refine ⟨fun h => ⟨fun h' => absurd h' h0, fun p hp hqp => ?_⟩, fun h => h.2 q hp rfl⟩
    have hqp' : q = p := by exact_mod_cast hqp
    subst hqp'
    exact h

/-- **C45** `global_hilbert(a,b,plist,badp)`: if `plist` consists of primes (or `0`, `-1`) and
contains every odd prime at which the symbol is not plainly trivial, the answer is `0` exactly when
`a x^2 + b y^2 = z^2` has a non-trivial rational solution; otherwise it is `1` and `badp` is `0` or
in the list, and is a place at which the equation has no solution. -/
theorem C45_global_gen {a b : ℤ} (ha : a ≠ 0) (hb : b ≠ 0) {plist : List ℤ}
    (hpl : ∀ p ∈ plist, p ≤ 0 ∨ Prime p)
    (hall : ∀ p : ℕ, ∀ hp : p.Prime, p ≠ 2 → (p : ℤ) ∉ plist → @Sol p ⟨hp⟩ a b) (badp : ℤ) :
    ∃ h badp', globalHilbert a b plist badp = some (h, badp') ∧ (h = 0 ∨ h = 1) ∧
      (h = 0 ↔ SolInt a b) ∧ (h = 1 → (badp' = 0 ∨ badp' ∈ plist) ∧ ¬ SolAt badp' a b) := by
  have hno : ∀ q, q ≤ 0 ∨ Prime q → ¬ SolAt q a b → ¬ SolInt a b := by
    intro q hq hn hs
    exact hn ⟨fun _ => hs.real, fun p hp _ => @SolInt.local _ _ hs p ⟨hp⟩⟩
  obtain ⟨k, e1, e2, e3⟩ := C45_real ha hb (le_refl (0 : ℤ))
  rcases e2 with rfl | rfl
  · obtain ⟨h, bp', f1, f2⟩ := anyBad_spec ha hb plist badp hpl
    refine ⟨h, bp', by simp only [globalHilbert, e1, f1], ?_⟩
    rcases f2 with ⟨rfl, g2⟩ | ⟨rfl, g2, g3⟩
    · refine ⟨Or.inl rfl, ⟨fun _ => ?_, fun _ => rfl⟩, by omega⟩
      refine legendre_thm a b ha hb (everywhere_of_odd ha hb (e3.mp rfl) fun p hp hp2 => ?_)
      by_cases hm : (p : ℤ) ∈ plist
      · have := (not_solAt_iff ha hb (hpl _ hm)).mp (g2 _ hm)
        exact this.2 p hp rfl
      · exact hall p hp hp2 hm
    · have hn : ¬ SolAt bp' a b := by
        rw [← not_solAt_iff ha hb (hpl _ g2), g3]
        simp
      exact ⟨Or.inr rfl, ⟨by omega, fun hs => absurd hs (hno _ (hpl _ g2) hn)⟩, fun _ => ⟨Or.inr g2, hn⟩⟩
  · have hn : ¬ SolAt 0 a b := by
      rw [← not_solAt_iff ha hb (Or.inl le_rfl), e1]
      simp
    exact ⟨1, 0, by simp only [globalHilbert, e1], Or.inr rfl,
      ⟨by omega, fun hs => absurd hs (hno _ (Or.inl le_rfl) hn)⟩, fun _ => ⟨Or.inl rfl, hn⟩⟩

/-- **C45** `global_hilbert(a,b,plist,badp)` with a list of primes containing the odd primes
dividing `a b` (whether `2` is in it or not makes no difference, by the product formula) -/
theorem C45_global {a b : ℤ} (ha : a ≠ 0) (hb : b ≠ 0) {plist : List ℤ}
    (hpl : ∀ p ∈ plist, p ≤ 0 ∨ Prime p)
    (hall : ∀ p : ℕ, p.Prime → p ≠ 2 → (p : ℤ) ∣ a * b → (p : ℤ) ∈ plist) (badp : ℤ) :
    ∃ h badp', globalHilbert a b plist badp = some (h, badp') ∧ (h = 0 ∨ h = 1) ∧
      (h = 0 ↔ SolInt a b) ∧ (h = 1 → (badp' = 0 ∨ badp' ∈ plist) ∧ ¬ SolAt badp' a b) := by
  refine C45_global_gen ha hb hpl (fun p hp hp2 hn => ?_) badp
  have hf : Fact p.Prime := ⟨hp⟩
  have hd : ¬ (p : ℤ) ∣ a * b := fun h => hn (hall p hp hp2 h)
  exact sol_odd_units hp2 (fun h => hd (h.mul_right _)) (fun h => hd (h.mul_left _))

/-- non-trivial rational points on `q(x,z) = d y^2` -/
def SolQuad (q0 q1 q2 d : ℤ) : Prop :=
  ∃ x z y : ℤ, ¬ (x = 0 ∧ z = 0 ∧ y = 0) ∧ q0 * x ^ 2 + q1 * x * z + q2 * z ^ 2 = d * y ^ 2

/-- completing the square -/
theorem solQuad_iff {q0 q1 q2 d : ℤ} (h0 : q0 ≠ 0) :
    SolQuad q0 q1 q2 d ↔ SolInt (q0 * d) (q1 * q1 - 4 * q0 * q2) := by
  constructor
  · rintro ⟨x, z, y, hn, h⟩
    refine ⟨2 * y, z, 2 * q0 * x + q1 * z, ?_, by linear_combination (-4) * q0 * h⟩
    rintro ⟨h1, h2, h3⟩
    subst h2
    have hx : x = 0 := by
      rw [mul_zero, add_zero] at h3
      exact (mul_eq_zero.mp h3).resolve_left (mul_ne_zero two_ne_zero h0)
    exact hn ⟨hx, rfl, by omega⟩
  · rintro ⟨x, y, z, hn, h⟩
    -- solve 2 q0 X + q1 Z = z', with everything multiplied by 2 q0
    refine ⟨z - q1 * y, 2 * q0 * y, q0 * x, ?_, by linear_combination (-q0) * h⟩
    rintro ⟨h1, h2, h3⟩
    have hy : y = 0 := (mul_eq_zero.mp h2).resolve_left (mul_ne_zero two_ne_zero h0)
    have hx : x = 0 := (mul_eq_zero.mp h3).resolve_left h0
    subst hy
    exact hn ⟨hx, rfl, by linear_combination h1⟩

/-- **C45** `global_hilbert(q,d,plist,badp)` for a binary quadratic `q` with `q[0]`, `d` and the
discriminant non-zero: `plist` need only contain the odd primes dividing the discriminant and `d`
(the primes dividing `q[0]` do not matter, since the discriminant is a square modulo them).  The
answer is `0` exactly when `q(x,z) = d y^2` has a non-trivial rational solution. -/
theorem C45_global_quad {q0 q1 q2 d : ℤ} (h0 : q0 ≠ 0) (hd : d ≠ 0)
    (hD : q1 * q1 - 4 * q0 * q2 ≠ 0) {plist : List ℤ} (hpl : ∀ p ∈ plist, p ≤ 0 ∨ Prime p)
    (hall : ∀ p : ℕ, p.Prime → p ≠ 2 → (p : ℤ) ∣ (q1 * q1 - 4 * q0 * q2) * d → (p : ℤ) ∈ plist)
    (badp : ℤ) :
    ∃ h badp', globalHilbertQ q0 q1 q2 d plist badp = some (h, badp') ∧ (h = 0 ∨ h = 1) ∧
      (h = 0 ↔ SolQuad q0 q1 q2 d) ∧
      (h = 1 → (badp' = 0 ∨ badp' ∈ plist) ∧ ¬ SolAt badp' (q0 * d) (q1 * q1 - 4 * q0 * q2)) := by
  rw [solQuad_iff h0]
  refine C45_global_gen (mul_ne_zero h0 hd) hD hpl (fun p hp hp2 hn => ?_) badp
  have hf : Fact p.Prime := ⟨hp⟩
  have hnd : ¬ (p : ℤ) ∣ (q1 * q1 - 4 * q0 * q2) * d := fun h => hn (hall p hp hp2 h)
  have h1 : ¬ (p : ℤ) ∣ q1 * q1 - 4 * q0 * q2 := fun h => hnd (h.mul_right _)
  by_cases hq : (p : ℤ) ∣ q0
  · -- the discriminant is a square modulo p, so a square in the p-adic integers
    have hsq : IsSquare ((q1 * q1 - 4 * q0 * q2 : ℤ) : ZMod p) := by
      have : (q0 : ZMod p) = 0 := (ZMod.intCast_zmod_eq_zero_iff_dvd q0 p).mpr hq
      refine ⟨q1, ?_⟩
      push_cast
      rw [this]
      ring
    obtain ⟨z, hz⟩ := padic_of_isSquare hp2 h1 hsq
    refine Sol.of_int (x := 0) (y := 1) (z := z) (by simp) ?_
    rw [hz]
    ring
  · refine sol_odd_units hp2 ?_ h1
    intro h
    rcases (Nat.prime_iff_prime_int.mp hp).dvd_or_dvd h with h | h
    · exact hq h
    · exact hnd (h.mul_left _)

/-- **Finding.**  For `q = [0,q1,q2]` the form `q(x,z) = d y^2` always has the solution `x = 1`, but
`local_hilbert` is called with a zero argument, prints an error and returns `-1`, and
`global_hilbert` takes that for insolubility at infinity. -/
theorem C45_quad_zero_lead (q1 q2 d : ℤ) (plist : List ℤ) (badp : ℤ) :
    SolQuad 0 q1 q2 d ∧ globalHilbertQ 0 q1 q2 d plist badp = some (1, 0) := by
  refine ⟨⟨1, 0, 0, by simp, by ring⟩, ?_⟩
  simp [globalHilbertQ, globalHilbert, localHilbert]

/-- the hypotheses of `C45_global` are met by `(-5,6)` with its primes (where the answer is `0`) -/
example : ∃ h bp, globalHilbert (-5) 6 [2, 3, 5] 99 = some (h, bp) ∧ (h = 0 ↔ SolInt (-5) 6) := by
  obtain ⟨h, bp, e1, -, e2, -⟩ := C45_global (a := -5) (b := 6) (by norm_num) (by norm_num)
    (plist := [2, 3, 5]) (by
      intro p hp
      simp only [List.mem_cons, List.not_mem_nil, or_false] at hp
      right
      rcases hp with rfl | rfl | rfl
      · exact Int.prime_two
      · exact Int.prime_three
      · exact Nat.prime_iff_prime_int.mp Nat.prime_five) (by
      intro p hp _ hd
      have h30 : p ∣ 2 * 3 * 5 := by
        have := Int.natAbs_dvd_natAbs.mpr hd
        simpa using this
      simp only [List.mem_cons, List.not_mem_nil, or_false]
      rcases (Nat.Prime.dvd_mul hp).mp h30 with h | h
      · rcases (Nat.Prime.dvd_mul hp).mp h with h | h
        · left; exact_mod_cast (Nat.prime_dvd_prime_iff_eq hp Nat.prime_two).mp h
        · right; left; exact_mod_cast (Nat.prime_dvd_prime_iff_eq hp Nat.prime_three).mp h
      · right; right; exact_mod_cast (Nat.prime_dvd_prime_iff_eq hp Nat.prime_five).mp h) 99
  exact ⟨h, bp, e1, e2⟩

/-- the hypotheses of `C45_global_quad` are met by `3x^2 + xz - z^2 = 5y^2`, discriminant `13` -/
example : ∃ h bp, globalHilbertQ 3 1 (-1) 5 [13, 5] 99 = some (h, bp) ∧
    (h = 0 ↔ SolQuad 3 1 (-1) 5) := by
  have h13 : Nat.Prime 13 := by norm_num
  obtain ⟨h, bp, e1, -, e2, -⟩ := C45_global_quad (q0 := 3) (q1 := 1) (q2 := -1) (d := 5)
    (by norm_num) (by norm_num) (by norm_num) (plist := [13, 5]) (by
      intro p hp
      simp only [List.mem_cons, List.not_mem_nil, or_false] at hp
      right
      rcases hp with rfl | rfl
      · exact Nat.prime_iff_prime_int.mp h13
      · exact Nat.prime_iff_prime_int.mp Nat.prime_five) (by
      intro p hp _ hd
      have h65 : p ∣ 13 * 5 := by
        have := Int.natAbs_dvd_natAbs.mpr hd
        simpa using this
      simp only [List.mem_cons, List.not_mem_nil, or_false]
      rcases (Nat.Prime.dvd_mul hp).mp h65 with h | h
      · left; exact_mod_cast (Nat.prime_dvd_prime_iff_eq hp h13).mp h
      · right; exact_mod_cast (Nat.prime_dvd_prime_iff_eq hp Nat.prime_five).mp h) 99
  exact ⟨h, bp, e1, e2⟩

end Eclib.Local
