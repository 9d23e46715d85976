import Verif.Arith.Props
import Verif.Symb.Model
import Verif.Symb.Count
import Mathlib.Data.List.GetD

/-!
# The tables of `moddata`
-/

namespace Eclib.Symb

open Eclib.Arith (bezout posdivs posmod)

theorem reduce_eq {N : ℤ} (hN : 0 < N) (r : ℤ) : reduce N r = r % N := by
  unfold reduce
  simp only
  have h1 := Int.tmod_add_mul_tdiv r N
  have h2 := Int.emod_add_mul_ediv r N
  have h3 : |r.tmod N| < N := by
    rw [Int.abs_eq_natAbs, Int.natAbs_tmod]
    have := Nat.mod_lt r.natAbs (Int.natAbs_pos.2 hN.ne')
    omega
  have h4 := Int.emod_nonneg r hN.ne'
  have h5 := Int.emod_lt_of_pos r hN
  have h6 : N ∣ r.tmod N - r % N := ⟨r / N - r.tdiv N, by linear_combination h1 - h2⟩
  obtain ⟨k, hk⟩ := h6
  rw [abs_lt] at h3
  split_ifs with h
  · have : k = -1 := by
      have a : N * k < 0 := by omega
      have b : N * (-2) < N * k := by omega
      have := lt_of_mul_lt_mul_left b hN.le
      have : k < 0 := by
        by_contra hk0
        have : 0 ≤ N * k := mul_nonneg hN.le (by omega)
        omega
      omega
    subst this; omega
  · have : k = 0 := by
      have a : N * (-1) < N * k := by omega
      have b : N * k < N * 1 := by omega
      have := lt_of_mul_lt_mul_left a hN.le
      have := lt_of_mul_lt_mul_left b hN.le
      omega
    subst this; omega

theorem dvd_tmod_sub (a N : ℤ) : N ∣ a.tmod N - a :=
  ⟨-a.tdiv N, by linear_combination Int.tmod_add_mul_tdiv a N⟩

theorem dvd_emod_sub (a N : ℤ) : N ∣ a % N - a :=
  ⟨-(a / N), by linear_combination Int.emod_add_mul_ediv a N⟩

theorem dvd_xmodmul (a b N : ℤ) : N ∣ xmodmul a b N - a * b := dvd_tmod_sub _ _

/-! ### `bezout_x` -/

theorem bezoutXLoop_spec (a b x oldx : ℤ) : ∀ (aa bb : ℤ), bb ∣ oldx * aa - a → bb ∣ x * aa - b →
    Int.gcd (bezoutXLoop a b x oldx).1 0 = Int.gcd a b ∧
      bb ∣ (bezoutXLoop a b x oldx).2 * aa - (bezoutXLoop a b x oldx).1 := by
  fun_induction bezoutXLoop a b x oldx with
  | case1 a x oldx => intro aa bb h1 h2; exact ⟨by simp, h1⟩
  | case2 a b x oldx h q ih =>
    intro aa bb h1 h2
    obtain ⟨i1, i2⟩ := ih aa bb h2 (by
      obtain ⟨k, hk⟩ := h1
      obtain ⟨l, hl⟩ := h2
      exact ⟨k - q * l, by linear_combination hk - q * hl⟩)
    refine ⟨?_, i2⟩
    rw [i1, Int.gcd_comm a b, show a - q * b = a - b * q by ring]
    exact Int.gcd_sub_mul_left_right _ _ _

theorem bezoutX_spec (a b : ℤ) :
    (bezoutX a b).1 = Int.gcd a b ∧ b ∣ (bezoutX a b).2 * a - (bezoutX a b).1 := by
  obtain ⟨h1, h2⟩ := bezoutXLoop_spec a b 0 1 a b ⟨0, by ring⟩ ⟨-1, by ring⟩
  unfold bezoutX
  simp only
  rw [Int.gcd_zero_right] at h1
  split_ifs with h
  · refine ⟨by rw [← h1]; omega, ?_⟩
    obtain ⟨k, hk⟩ := h2
    exact ⟨-k, by linear_combination -hk⟩
  · exact ⟨by rw [← h1]; omega, h2⟩

/-! ### the adjustment -/

theorem mmLoop_spec {m N : ℤ} (hm : m ∣ N) (hN : 0 < N) (fuel : ℕ) :
    ∀ (k : ℕ) (mpower mm mmold : ℤ), N ∣ mpower - m ^ (k + 1) → mm = Int.gcd (m ^ (k + 1)) N →
      mmold = Int.gcd (m ^ k) N → N - mmold < fuel →
      ∃ r, mmLoop m N fuel mpower mm mmold = some r ∧ 0 < r ∧ r ∣ N ∧ m ∣ r ∧
        IsCoprime m (N / r) ∧ ∃ j, r ∣ m ^ j := by
  induction fuel with
  | zero =>
    intro k mpower mm mmold h1 h2 h3 h4
    exfalso
    have : mmold ≤ N := by
      rw [h3]; exact Int.le_of_dvd hN (Int.gcd_dvd_right _ _)
    push_cast at h4
    omega
  | succ fuel ih =>
    intro k mpower mm mmold h1 h2 h3 h4
    have hdvd : mmold ∣ mm := by
      rw [h2, h3]
      exact Int.dvd_coe_gcd ((Int.gcd_dvd_left _ _).trans (pow_dvd_pow m (by omega)))
        (Int.gcd_dvd_right _ _)
    have hpos : 0 < mm := by
      rw [h2]
      have : 0 < Int.gcd (m ^ (k + 1)) N := Int.gcd_pos_of_ne_zero_right _ hN.ne'
      exact_mod_cast this
    have hposo : 0 < mmold := by
      rw [h3]
      have : 0 < Int.gcd (m ^ k) N := Int.gcd_pos_of_ne_zero_right _ hN.ne'
      exact_mod_cast this
    rw [mmLoop]
    by_cases hne : mm ≠ mmold
    · rw [if_pos hne]
      have hc : N ∣ xmodmul m mpower N - m ^ (k + 1 + 1) := by
        obtain ⟨a, ha⟩ := dvd_xmodmul m mpower N
        obtain ⟨b, hb⟩ := h1
        exact ⟨a + m * b, by rw [pow_succ m (k + 1)]; linear_combination ha + m * hb⟩
      have hg : Arith.gcd (xmodmul m mpower N) N = Int.gcd (m ^ (k + 1 + 1)) N := by
        rw [Arith.gcd_eq]
        congr 1
        obtain ⟨a, ha⟩ := hc
        rw [show xmodmul m mpower N = m ^ (k + 1 + 1) + a * N by linear_combination ha]
        exact Int.gcd_add_mul_right_left _ _ _
      refine ih (k + 1) _ _ _ hc hg h2 ?_
      have hlt : mmold < mm := lt_of_le_of_ne (Int.le_of_dvd hpos hdvd) (Ne.symm hne)
      push_cast at h4
      omega
    · rw [if_neg hne]
      push Not at hne
      have hmN : mm ∣ N := h2 ▸ Int.gcd_dvd_right _ _
      refine ⟨mm, rfl, hpos, hmN, ?_, ?_, k + 1, h2 ▸ Int.gcd_dvd_left _ _⟩
      · rw [h2]
        exact Int.dvd_coe_gcd (dvd_pow_self m (by omega)) hm
      · rw [Int.isCoprime_iff_gcd_eq_one]
        by_contra hg
        obtain ⟨q, hq, hqd⟩ := Nat.exists_prime_and_dvd hg
        have hq' := Nat.prime_iff_prime_int.1 hq
        have hqd' : (q : ℤ) ∣ (Int.gcd m (N / mm) : ℤ) := Int.natCast_dvd_natCast.2 hqd
        have d1 : (q : ℤ) ∣ m := hqd'.trans (Int.gcd_dvd_left _ _)
        have d2 : (q : ℤ) ∣ N / mm := hqd'.trans (Int.gcd_dvd_right _ _)
        have e1 : (q : ℤ) * mm ∣ N := by
          obtain ⟨c, hc⟩ := d2
          refine ⟨c, ?_⟩
          have := Int.mul_ediv_cancel' hmN
          rw [hc] at this
          linear_combination -this
        have e2 : (q : ℤ) * mm ∣ m ^ (k + 1) := by
          rw [pow_succ', hne, h3]
          exact mul_dvd_mul d1 (Int.gcd_dvd_left _ _)
        have e3 : (q : ℤ) * mm ∣ 1 * mm := by
          rw [one_mul]
          nth_rw 2 [h2]
          exact Int.dvd_coe_gcd e2 e1
        have e4 : (q : ℤ) ∣ 1 := Int.dvd_of_mul_dvd_mul_right hpos.ne' e3
        exact hq'.not_isUnit (isUnit_of_dvd_one e4)

/-- `unitdivlist[i]`: a unit `u` with `u i ≡ gcd(i, N)` -/
theorem unitAdjust_spec {N i x : ℤ} (hN : 0 < N) (hx : N ∣ x * i - Int.gcd i N) :
    ∃ u, unitAdjust N (Int.gcd i N) x = some u ∧ IsCoprime u N ∧ N ∣ u * i - Int.gcd i N := by
  unfold unitAdjust
  split_ifs with hg
  · set d : ℤ := (Int.gcd i N : ℤ) with hd
    have hdN : d ∣ N := Int.gcd_dvd_right _ _
    have hdi : d ∣ i := Int.gcd_dvd_left _ _
    have hd0 : 0 < d := by
      have : 0 < Int.gcd i N := Int.gcd_pos_of_ne_zero_right _ hN.ne'
      rw [hd]; exact_mod_cast this
    have hm : d * N.tdiv d = N := Int.mul_tdiv_cancel' hdN
    set m := N.tdiv d with hmdef
    have hm0 : 0 < m := by
      by_contra h
      have : d * m ≤ 0 := mul_nonpos_of_nonneg_of_nonpos hd0.le (by omega)
      omega
    have hmN : m ∣ N := ⟨d, by rw [← hm]; ring⟩
    obtain ⟨mm, h1, h2, h3, h4, h5, j, h6⟩ := mmLoop_spec hmN hN (N.toNat + 1) 0 m m 1
      ⟨0, by ring⟩ (by rw [zero_add, pow_one, Int.gcd_eq_left_iff_dvd (by omega) |>.2 hmN])
      (by simp) (by omega)
    simp only [h1]
    refine ⟨_, rfl, ?_⟩
    have hr : mm * N.tdiv mm = N := Int.mul_tdiv_cancel' h3
    have hrr : N.tdiv mm = N / mm := by
      apply mul_left_cancel₀ h2.ne'
      rw [hr, Int.mul_ediv_cancel' h3]
    rw [← hrr] at h5
    set r := N.tdiv mm with hrdef
    have hco : IsCoprime mm r := by
      have : IsCoprime (m ^ j) r := h5.pow_left
      exact this.of_isCoprime_of_dvd_left h6
    have hbz : mm * (bezout mm r).2.1 + r * (bezout mm r).2.2 = 1 := by
      rw [Arith.bezout_identity, Arith.bezout_fst, Int.isCoprime_iff_gcd_eq_one.1 hco]
      rfl
    set u := (bezout mm r).2.1
    set v := (bezout mm r).2.2
    obtain ⟨k1, e1⟩ := dvd_tmod_sub (x * v) mm
    obtain ⟨k2, e2⟩ := dvd_tmod_sub ((x * v).tmod mm * r) N
    obtain ⟨k3, e3⟩ := dvd_tmod_sub (((x * v).tmod mm * r).tmod N + u * mm) N
    set y := (((x * v).tmod mm * r).tmod N + u * mm).tmod N with hy
    -- `y = x v r + u mm` modulo `N`
    have hyN : N ∣ y - (x * v * r + u * mm) :=
      ⟨k3 + k2 + k1, by linear_combination e3 + e2 + r * e1 + k1 * hr⟩
    obtain ⟨k, hk⟩ := hyN
    have ymm : mm ∣ y - x := ⟨r * k + u - x * u, by
      linear_combination hk + k * (-hr) + x * hbz⟩
    have yr : r ∣ y - 1 := ⟨mm * k + x * v - v, by
      linear_combination hk - k * hr + hbz⟩
    obtain ⟨i', hi'⟩ := hdi
    obtain ⟨z, hz⟩ := hx
    have hxi : m ∣ x * i' - 1 := ⟨z, by
      apply mul_left_cancel₀ hd0.ne'
      linear_combination hz - x * hi' - z * hm⟩
    have hxm : IsCoprime x m := by
      obtain ⟨w, hw⟩ := hxi
      exact ⟨i', -w, by linear_combination hw⟩
    have hxmm : IsCoprime x mm := (hxm.pow_right (n := j)).of_isCoprime_of_dvd_right h6
    constructor
    · rw [← hr]
      refine IsCoprime.mul_right ?_ ?_
      · obtain ⟨w, hw⟩ := ymm
        rw [show y = x + mm * w by linear_combination hw]
        exact IsCoprime.add_mul_left_left hxmm w
      · obtain ⟨w, hw⟩ := yr
        exact ⟨1, -w, by linear_combination hw⟩
    · have : m ∣ y * i' - 1 := by
        obtain ⟨w, hw⟩ := h4.trans ymm
        obtain ⟨w', hw'⟩ := hxi
        exact ⟨w * i' + w', by linear_combination i' * hw + hw'⟩
      obtain ⟨w, hw⟩ := this
      refine ⟨w, ?_⟩
      rw [← hm]
      linear_combination y * hi' + d * hw
  · refine ⟨x, rfl, ?_, hx⟩
    rw [Arith.gcd_eq] at hg
    push Not at hg
    rw [Int.isCoprime_iff_gcd_eq_one]
    exact_mod_cast hg

/-! ### `phi` and `psi` -/

theorem phiPsi_append (N : ℤ) (ps : List ℤ) (p : ℤ) : phiPsi N (ps ++ [p]) =
    ((phiPsi N ps).1 - (phiPsi N ps).1.tdiv p, (phiPsi N ps).2 + (phiPsi N ps).2.tdiv p) := by
  simp [phiPsi, List.foldl_append]

theorem phiPsi_prod {N : ℤ} (ps : List ℤ) (hnd : ps.Nodup) (hp : ∀ p ∈ ps, 0 < p ∧ Prime p ∧ p ∣ N) :
    (phiPsi N ps).1 * ps.prod = N * (ps.map (· - 1)).prod ∧
      (phiPsi N ps).2 * ps.prod = N * (ps.map (· + 1)).prod := by
  induction ps using List.reverseRecOn with
  | nil => simp [phiPsi]
  | append_singleton ps p ih =>
    rw [List.nodup_append] at hnd
    obtain ⟨i1, i2⟩ := ih hnd.1 fun q hq => hp q (by simp [hq])
    obtain ⟨p0, pp, pN⟩ := hp p (by simp)
    have hnp : ¬ p ∣ ps.prod := by
      intro h
      obtain ⟨q, hq, hpq⟩ := (pp.dvd_prod_iff).1 h
      obtain ⟨q0, qq, -⟩ := hp q (by simp [hq])
      have := (pp.dvd_prime_iff_associated qq).1 hpq
      rw [Int.associated_iff] at this
      rcases this with h | h
      · exact hnd.2.2 q hq p (by simp) h.symm
      · omega
    have d1 : p ∣ (phiPsi N ps).1 := by
      have : p ∣ (phiPsi N ps).1 * ps.prod := i1 ▸ Dvd.dvd.mul_right pN _
      exact (pp.dvd_or_dvd this).resolve_right hnp
    have d2 : p ∣ (phiPsi N ps).2 := by
      have : p ∣ (phiPsi N ps).2 * ps.prod := i2 ▸ Dvd.dvd.mul_right pN _
      exact (pp.dvd_or_dvd this).resolve_right hnp
    rw [phiPsi_append]
    simp only [List.prod_append, List.prod_cons, List.prod_nil, mul_one, List.map_append,
      List.map_cons, List.map_nil]
    have e1 := Int.mul_tdiv_cancel' d1
    have e2 := Int.mul_tdiv_cancel' d2
    constructor
    · linear_combination (p - 1) * i1 - ps.prod * e1
    · linear_combination (p + 1) * i2 + ps.prod * e2

open Spec in
theorem prod_primeFactors {N : ℤ} (hN : 0 < N) {ps : List ℤ} (h : IsPrimeDivisorList N ps)
    (f : ℤ → ℤ) : (ps.map f).prod = ∏ p ∈ N.toNat.primeFactors, f p := by
  rw [← List.prod_toFinset f h.nodup]
  symm
  refine Finset.prod_bij (fun p _ => (p : ℤ)) ?_ ?_ ?_ ?_
  · intro p hp
    rw [Nat.mem_primeFactors] at hp
    rw [List.mem_toFinset, h.mem]
    refine ⟨by exact_mod_cast hp.1.pos, Nat.prime_iff_prime_int.1 hp.1, ?_⟩
    have := Int.natCast_dvd_natCast.2 hp.2.1
    rwa [Int.toNat_of_nonneg hN.le] at this
  · intro p _ q _ h
    exact_mod_cast h
  · intro q hq
    rw [List.mem_toFinset, h.mem] at hq
    refine ⟨q.toNat, ?_, Int.toNat_of_nonneg hq.1.le⟩
    rw [Nat.mem_primeFactors]
    refine ⟨?_, ?_, by omega⟩
    · rw [Nat.prime_iff_prime_int, Int.toNat_of_nonneg hq.1.le]; exact hq.2.1
    · rw [← Int.natCast_dvd_natCast, Int.toNat_of_nonneg hq.1.le, Int.toNat_of_nonneg hN.le]
      exact hq.2.2
  · intro p _; rfl

open Spec in
theorem phiPsi_spec {N : ℤ} (hN : 0 < N) {ps : List ℤ} (h : IsPrimeDivisorList N ps) :
    (phiPsi N ps).1 = Nat.totient N.toNat ∧
      (phiPsi N ps).2 * Nat.totient N.toNat = Nat.card (UPair N.toNat) := by
  obtain ⟨h1, h2⟩ := phiPsi_prod ps h.nodup fun p hp => (h.mem p).1 hp
  have hid : ps.prod = ∏ p ∈ N.toNat.primeFactors, (p : ℤ) := by
    have := prod_primeFactors hN h id
    simpa using this
  rw [prod_primeFactors hN h, hid] at h1 h2
  have hne : (∏ p ∈ N.toNat.primeFactors, (p : ℤ)) ≠ 0 := by
    rw [Finset.prod_ne_zero_iff]
    intro p hp
    exact_mod_cast (Nat.prime_of_mem_primeFactors hp).ne_zero
  have hNt : ((N.toNat : ℕ) : ℤ) = N := Int.toNat_of_nonneg hN.le
  have t := Nat.totient_mul_prod_primeFactors N.toNat
  have t' : ((Nat.totient N.toNat : ℕ) : ℤ) * ∏ p ∈ N.toNat.primeFactors, (p : ℤ) =
      N * ∏ p ∈ N.toNat.primeFactors, ((p : ℤ) - 1) := by
    have := congrArg (Nat.cast : ℕ → ℤ) t
    push_cast at this
    rw [this, hNt]
    congr 1
    refine Finset.prod_congr rfl fun p hp => ?_
    rw [Nat.cast_sub (Nat.prime_of_mem_primeFactors hp).one_lt.le]; simp
  have e1 : (phiPsi N ps).1 = Nat.totient N.toNat := by
    apply mul_right_cancel₀ hne
    rw [h1, t']
  refine ⟨e1, ?_⟩
  have c := congrArg (Nat.cast : ℕ → ℤ) (card_upair N.toNat (by omega))
  push_cast at c
  rw [hNt] at c
  have c' : (Nat.card (UPair N.toNat) : ℤ) * (∏ p ∈ N.toNat.primeFactors, (p : ℤ)) ^ 2 =
      N ^ 2 * ((∏ p ∈ N.toNat.primeFactors, ((p : ℤ) - 1)) *
        ∏ p ∈ N.toNat.primeFactors, ((p : ℤ) + 1)) := by
    rw [← Finset.prod_pow, c, ← Finset.prod_mul_distrib]
    congr 1
    refine Finset.prod_congr rfl fun p hp => ?_
    rw [Nat.cast_sub (Nat.one_le_pow _ _ (Nat.prime_of_mem_primeFactors hp).pos)]
    push_cast; ring
  apply mul_right_cancel₀ (pow_ne_zero 2 hne)
  rw [c']
  linear_combination (Nat.totient N.toNat : ℤ) * (∏ p ∈ N.toNat.primeFactors, (p : ℤ)) * h2 +
    N * (∏ p ∈ N.toNat.primeFactors, ((p : ℤ) + 1)) * t'

/-! ### the loop over the residues -/

/-- the non-units below `n` -/
def nonU (N : ℤ) (n : ℕ) : List ℤ :=
  ((List.range n).filter fun i : ℕ => decide (Int.gcd (i : ℤ) N ≠ 1)).map fun i : ℕ => (i : ℤ)

theorem mem_nonU {N : ℤ} {n : ℕ} {x : ℤ} :
    x ∈ nonU N n ↔ 0 ≤ x ∧ x < n ∧ Int.gcd x N ≠ 1 := by
  simp only [nonU, List.mem_map, List.mem_filter, List.mem_range, decide_eq_true_eq]
  constructor
  · rintro ⟨i, ⟨h1, h2⟩, rfl⟩
    exact ⟨by omega, by omega, h2⟩
  · rintro ⟨h0, h1, h2⟩
    refine ⟨x.toNat, ⟨by omega, ?_⟩, by omega⟩
    rwa [Int.toNat_of_nonneg h0]

theorem nonU_nodup (N : ℤ) (n : ℕ) : (nonU N n).Nodup :=
  (List.nodup_range.filter _).map fun a b h => by exact_mod_cast h

theorem nonU_succ (N : ℤ) (n : ℕ) :
    nonU N (n + 1) = nonU N n ++ if Int.gcd n N ≠ 1 then [(n : ℤ)] else [] := by
  simp only [nonU, List.range_succ, List.filter_append, List.map_append]
  congr 1
  by_cases h : Int.gcd n N = 1
  · simp [h]
  · simp [h]

theorem nonU_length_mono (N : ℤ) {m n : ℕ} (h : m ≤ n) : (nonU N m).length ≤ (nonU N n).length := by
  induction n, h using Nat.le_induction with
  | base => exact le_rfl
  | succ n _ ih =>
    rw [nonU_succ, List.length_append]; omega

theorem nonU_length {N : ℤ} (hN : 0 < N) :
    ((nonU N N.toNat).length : ℤ) = N - Nat.totient N.toNat := by
  have h1 : (nonU N N.toNat).length + Nat.totient N.toNat = N.toNat := by
    rw [Nat.totient_eq_card_coprime, nonU, List.length_map, ← List.countP_eq_length_filter]
    have h2 : (Finset.filter (N.toNat.Coprime) (Finset.range N.toNat)).card =
        (List.range N.toNat).countP fun i : ℕ => decide (¬ Int.gcd (i : ℤ) N ≠ 1) := by
      rw [List.countP_eq_length_filter]
      change Multiset.card (Multiset.filter _ (Multiset.range N.toNat)) = _
      change Multiset.card (Multiset.filter _ (↑(List.range N.toNat) : Multiset ℕ)) = _
      rw [Multiset.filter_coe, Multiset.coe_card]
      congr 1
      apply List.filter_congr
      intro i _
      have : N = ((N.toNat : ℕ) : ℤ) := (Int.toNat_of_nonneg hN.le).symm
      rw [this, Int.toNat_natCast, Int.gcd_natCast_natCast]
      simp only [ne_eq, not_not, decide_eq_decide]
      exact ⟨fun h => Nat.coprime_comm.1 h, fun h => Nat.coprime_comm.1 h⟩
    rw [h2]
    have := List.length_eq_countP_add_countP (fun i : ℕ => decide (Int.gcd i N ≠ 1))
      (l := List.range N.toNat)
    rw [List.length_range] at this
    conv_rhs => rw [this]
    congr 1
    apply List.countP_congr
    intro x _
    simp
  have : ((N.toNat : ℕ) : ℤ) = N := Int.toNat_of_nonneg hN.le
  omega

/-- what the tables hold after the residues below `n` -/
structure TabOK (N : ℤ) (dlist : List ℤ) (n : ℕ) (t : Tab) : Prop where
  linv : t.inv.length = n
  lunits : t.units.length = n
  lgcds : t.gcds.length = n
  lnond : t.noninvd.length = t.noninv.length
  noninv : t.noninv = nonU N n
  unit : ∀ i : ℕ, i < n → Int.gcd i N = 1 → ∃ v, t.inv[i]? = some v ∧ 0 ≤ v ∧ v < N ∧ N ∣ v * i - 1
  non : ∀ i : ℕ, i < n → Int.gcd i N ≠ 1 → ∃ k : ℕ, t.inv[i]? = some (-(k : ℤ)) ∧
    t.noninv[k]? = some (i : ℤ) ∧
    t.noninvd[k]? = some (if (Int.gcd i N : ℤ) < N then (dlist.idxOf (Int.gcd i N : ℤ) : ℤ) else -1)
  units : ∀ i : ℕ, i < n → ∃ u, t.units[i]? = some u ∧ IsCoprime u N ∧ N ∣ u * i - Int.gcd i N
  gcds : ∀ i : ℕ, i < n → t.gcds[i]? = some (Int.gcd i N : ℤ)

theorem getElem?_append_of_some {α : Type*} {l : List α} {i : ℕ} {a : α} (h : l[i]? = some a)
    (l' : List α) : (l ++ l')[i]? = some a := by
  have hi : i < l.length := by
    by_contra hn
    rw [List.getElem?_eq_none (by omega)] at h
    exact absurd h (by simp)
  rw [List.getElem?_append_left hi, h]

theorem fill_spec {N : ℤ} (hN : 0 < N) (dlist : List ℤ) {size : ℤ}
    (hsize : size = N - Nat.totient N.toNat) (n : ℕ) (hn : n ≤ N.toNat) :
    ∃ t, Tab.fill N dlist size n = some t ∧ TabOK N dlist n t := by
  induction n with
  | zero =>
    refine ⟨_, rfl, ?_⟩
    constructor <;> simp [nonU]
  | succ n ih =>
    obtain ⟨t, ht, hok⟩ := ih (by omega)
    obtain ⟨b1, b2⟩ := bezoutX_spec n N
    simp only [Tab.fill, ht, Option.bind_some, Tab.step]
    rw [b1]
    rw [b1] at b2
    have hlast : ∀ {α : Type} (l : List α) (a : α), l.length = n → (l ++ [a])[n]? = some a := by
      intro α l a h
      rw [← h]; simp
    by_cases hg : Int.gcd n N = 1
    · rw [if_pos (by exact_mod_cast hg)]
      refine ⟨_, rfl, ?_⟩
      rw [hg] at b2
      have hred : N ∣ reduce N (bezoutX n N).2 * n - 1 := by
        rw [reduce_eq hN]
        obtain ⟨a, ha⟩ := dvd_emod_sub (bezoutX n N).2 N
        obtain ⟨b, hb⟩ := b2
        push_cast at hb
        exact ⟨a * n + b, by linear_combination n * ha + hb⟩
      constructor
      · simp [hok.linv]
      · simp [hok.lunits]
      · simp [hok.lgcds]
      · exact hok.lnond
      · rw [nonU_succ, if_neg (by simpa using hg), List.append_nil]; exact hok.noninv
      · intro i hi hgi
        by_cases hin : i = n
        · subst hin
          refine ⟨_, hlast _ _ hok.linv, ?_, ?_, hred⟩
          · rw [reduce_eq hN]; exact Int.emod_nonneg _ hN.ne'
          · rw [reduce_eq hN]; exact Int.emod_lt_of_pos _ hN
        · obtain ⟨v, h1, h2⟩ := hok.unit i (by omega) hgi
          exact ⟨v, getElem?_append_of_some h1 _, h2⟩
      · intro i hi hgi
        by_cases hin : i = n
        · subst hin; exact absurd hg hgi
        · obtain ⟨k, h1, h2, h3⟩ := hok.non i (by omega) hgi
          exact ⟨k, getElem?_append_of_some h1 _, h2, h3⟩
      · intro i hi
        by_cases hin : i = n
        · subst hin
          refine ⟨_, hlast _ _ hok.lunits, ?_, by rw [hg]; exact_mod_cast hred⟩
          obtain ⟨w, hw⟩ := hred
          exact ⟨i, -w, by linear_combination hw⟩
        · obtain ⟨u, h1, h2⟩ := hok.units i (by omega)
          exact ⟨u, getElem?_append_of_some h1 _, h2⟩
      · intro i hi
        by_cases hin : i = n
        · subst hin; exact hlast _ _ hok.lgcds
        · exact getElem?_append_of_some (hok.gcds i (by omega)) _
    · have hlen : (t.noninv.length : ℤ) < size := by
        have h1 := nonU_length_mono N hn
        have h2 := nonU_length hN
        rw [nonU_succ, if_pos hg, List.length_append, List.length_singleton] at h1
        rw [hok.noninv, hsize]
        omega
      obtain ⟨u, u1, u2, u3⟩ := unitAdjust_spec hN b2
      rw [if_neg (by exact_mod_cast hg), if_pos hlen, u1]
      refine ⟨_, rfl, ?_⟩
      constructor
      · simp [hok.linv]
      · simp [hok.lunits]
      · simp [hok.lgcds]
      · simp [hok.lnond]
      · simp only [nonU_succ]
        rw [if_pos hg, hok.noninv]
      · intro i hi hgi
        by_cases hin : i = n
        · subst hin; exact absurd hgi hg
        · obtain ⟨v, h1, h2⟩ := hok.unit i (by omega) hgi
          exact ⟨v, getElem?_append_of_some h1 _, h2⟩
      · intro i hi hgi
        by_cases hin : i = n
        · subst hin
          refine ⟨t.noninv.length, hlast _ _ hok.linv, by simp, ?_⟩
          rw [← hok.lnond]; simp
        · obtain ⟨k, h1, h2, h3⟩ := hok.non i (by omega) hgi
          exact ⟨k, getElem?_append_of_some h1 _, getElem?_append_of_some h2 _,
            getElem?_append_of_some h3 _⟩
      · intro i hi
        by_cases hin : i = n
        · subst hin
          exact ⟨_, hlast _ _ hok.lunits, u2, u3⟩
        · obtain ⟨u, h1, h2⟩ := hok.units i (by omega)
          exact ⟨u, getElem?_append_of_some h1 _, h2⟩
      · intro i hi
        by_cases hin : i = n
        · subst hin; exact hlast _ _ hok.lgcds
        · exact getElem?_append_of_some (hok.gcds i (by omega)) _

/-! ### `moddata` -/

/-- what the constructor of `moddata` provides -/
structure ModOK (N : ℤ) (M : Moddata) : Prop where
  hN : M.N = N
  phi : M.phi = Nat.totient N.toNat
  psi : M.psi * Nat.totient N.toNat = Nat.card (UPair N.toNat)
  nsymb1 : M.nsymb1 = 2 * N - M.phi
  nsymb2 : M.nsymb2 = M.psi - M.nsymb1
  tab : TabOK N M.dlist N.toNat M.toTab
  dnodup : M.dlist.Nodup
  dmem : ∀ d, d ∈ M.dlist ↔ 0 < d ∧ d ∣ N
  dhead : M.dlist.head? = some 1
  dlast : M.dlist.getLast? = some N

theorem blocks_head (p : ℤ) (e : ℕ) (l : List ℤ) (hl : l ≠ []) :
    (Arith.blocks p e l).head? = l.head? := by
  cases e with
  | zero => rfl
  | succ e =>
    rw [Arith.blocks, List.head?_append_of_ne_nil _ hl]

theorem blocks_ne (p : ℤ) (e : ℕ) (l : List ℤ) (hl : l ≠ []) : Arith.blocks p e l ≠ [] := by
  cases e with
  | zero => exact hl
  | succ e =>
    rw [Arith.blocks]
    exact List.append_ne_nil_of_left_ne_nil hl _

theorem blocks_last (p : ℤ) (e : ℕ) (l : List ℤ) (a : ℤ) (hl : l.getLast? = some a) :
    (Arith.blocks p e l).getLast? = some (p ^ e * a) := by
  induction e generalizing l a with
  | zero => simpa [Arith.blocks] using hl
  | succ e ih =>
    have hne : l ≠ [] := by rintro rfl; simp at hl
    have hne' : Arith.blocks p e (l.map (p * ·)) ≠ [] := blocks_ne _ _ _ (by simpa using hne)
    rw [Arith.blocks, List.getLast?_append_of_ne_nil _ hne', ih (l.map (p * ·)) (p * a)]
    · rw [pow_succ]; congr 1; ring
    · rw [List.getLast?_map, hl]; rfl

theorem divFold_ends (e : ℤ → ℕ) (ps : List ℤ) :
    Arith.divFold e ps [1] ≠ [] ∧ (Arith.divFold e ps [1]).head? = some 1 ∧
      (Arith.divFold e ps [1]).getLast? = some (Arith.divProd e ps) := by
  induction ps using List.reverseRecOn with
  | nil => simp [Arith.divFold, Arith.divProd]
  | append_singleton ps p ih =>
    obtain ⟨h0, h1, h2⟩ := ih
    have : Arith.divFold e (ps ++ [p]) [1] = Arith.blocks p (e p) (Arith.divFold e ps [1]) := by
      simp [Arith.divFold, List.foldl_append]
    rw [this, blocks_head _ _ _ h0, blocks_last _ _ _ _ h2, Arith.divProd_concat]
    exact ⟨blocks_ne _ _ _ h0, h1, by congr 1; ring⟩

/-- the constructor succeeds -/
theorem make_spec {N : ℤ} (hN : 0 < N) {ps : List ℤ} (hps : Spec.IsPrimeDivisorList N ps) :
    ∃ M, Moddata.make N ps = some M ∧ ModOK N M := by
  obtain ⟨p1, p2⟩ := phiPsi_spec hN hps
  obtain ⟨t, t1, t2⟩ := fill_spec hN (posdivs N ps) (size := N - (phiPsi N ps).1) (by rw [p1])
    N.toNat le_rfl
  have hlen : (N - (phiPsi N ps).1).toNat - t.noninv.length = 0 := by
    have := nonU_length hN
    rw [t2.noninv, p1]; omega
  simp only [Moddata.make, t1, Option.map_some, hlen, List.replicate_zero, List.append_nil]
  obtain ⟨d1, d2⟩ := Arith.Props.C07_posdivs N hN.ne' ps hps
  obtain ⟨e1, e2, e3⟩ := divFold_ends (fun p => Arith.val p N) ps
  have hdef : posdivs N ps = Arith.divFold (fun p => Arith.val p N) ps [1] := rfl
  refine ⟨_, rfl, rfl, p1, p2, rfl, rfl, t2, d1, d2, by rw [hdef]; exact e2, ?_⟩
  rw [hdef, e3]
  have hpos : ∀ p ∈ ps, 0 < p := fun p hp => ((hps.mem p).mp hp).1
  have hprime : ∀ p ∈ ps, Prime p := fun p hp => ((hps.mem p).mp hp).2.1
  have hco := Arith.pairwise_coprime_of_primes hpos hprime hps.nodup
  have a1 := (d2 (Arith.divProd (fun p => Arith.val p N) ps)).1
    (by rw [hdef]; exact List.mem_of_getLast? e3)
  have a2 := (d2 N).2 ⟨hN, dvd_rfl⟩
  rw [hdef, Arith.mem_divFold ps hpos hprime hco] at a2
  congr 1
  exact Int.dvd_antisymm a1.1.le hN.le a1.2 a2.2

end Eclib.Symb
