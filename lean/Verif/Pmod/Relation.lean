import Mathlib.Data.List.Sort
import Verif.Pmod.Merge

/-!
# C68: linear_relation
-/

set_option linter.unusedSectionVars false

namespace Eclib.Pmod

variable {G : Type} [AddCommGroup G] [DecidableEq G] {κ : Type} [DecidableEq κ]

/-- contract of `posdivs`: the positive divisors -/
def PosdivsOk (posdivs : ℤ → List ℤ) : Prop :=
  ∀ n : ℤ, n ≠ 0 → ∀ d, d ∈ posdivs n ↔ (0 < d ∧ d ∣ n)

theorem relLoop_spec (key : G → κ) (P1 Q1 : G) (g : ℤ) (ds : List ℤ) (h0 : ℤ)
    (hs : ds.Pairwise (· ≤ ·)) (hex : ∃ d ∈ ds, bg key P1 (d • Q1) 0 (g - 1) ≠ -1) :
    ∃ h ∈ ds, relLoop key P1 Q1 g ds h0 (-1) = (h, bg key P1 (h • Q1) 0 (g - 1)) ∧
      bg key P1 (h • Q1) 0 (g - 1) ≠ -1 ∧
      ∀ d ∈ ds, bg key P1 (d • Q1) 0 (g - 1) ≠ -1 → h ≤ d := by
  induction ds generalizing h0 with
  | nil => obtain ⟨d, hd, -⟩ := hex; simp at hd
  | cons d ds ih =>
    rw [relLoop, if_pos rfl]
    obtain ⟨hd, hs'⟩ := List.pairwise_cons.1 hs
    by_cases h1 : bg key P1 (d • Q1) 0 (g - 1) = -1
    · rw [h1]
      obtain ⟨h, a, b, c, e⟩ := ih d hs' (by
        obtain ⟨d', hd', hh⟩ := hex
        rcases List.mem_cons.1 hd' with h | h
        · rw [h] at hh; exact absurd h1 hh
        · exact ⟨d', h, hh⟩)
      refine ⟨h, by simp [a], b, c, fun d' hd' hh => ?_⟩
      rcases List.mem_cons.1 hd' with h2 | h2
      · rw [h2] at hh; exact absurd h1 hh
      · exact e d' h2 hh
    · refine ⟨d, by simp, ?_, h1, fun d' hd' _ => ?_⟩
      · cases ds with
        | nil => rfl
        | cons x xs => rw [relLoop, if_neg h1]
      · rcases List.mem_cons.1 hd' with h2 | h2
        · rw [h2]
        · exact hd d' h2

/-- success of the search is membership in the cyclic group -/
theorem bg_mem {key : G → κ} (hkey : KeyOk key) {P1 R : G} {g : ℤ} (hg : 0 < g)
    (hP : g • P1 = 0) : bg key P1 R 0 (g - 1) ≠ -1 ↔ ∃ a : ℤ, a • P1 = R := by
  have h := C66_bg hkey P1 R 0 (g - 1) (le_refl _) (by omega) (Or.inl rfl)
  constructor
  · intro h1
    rcases h with ⟨_, _, h2, _⟩ | ⟨h2, _⟩
    · exact ⟨_, h2⟩
    · exact absurd h2 h1
  · rintro ⟨a, ha⟩ h1
    rcases h with ⟨h2, _⟩ | ⟨_, h2⟩
    · omega
    · obtain ⟨k, c1, c2, c3⟩ := reduce_sol (lower := 0) hg hP ha
      exact h2 k c1 (by split_ifs <;> omega) c3

theorem bg_sol {key : G → κ} (hkey : KeyOk key) {P1 R : G} {g : ℤ} (hg : 0 < g)
    (h1 : bg key P1 R 0 (g - 1) ≠ -1) : bg key P1 R 0 (g - 1) • P1 = R := by
  rcases C66_bg hkey P1 R 0 (g - 1) (le_refl _) (by omega) (Or.inl rfl) with ⟨_, _, h2, _⟩ | ⟨h2, _⟩
  · exact h2
  · exact absurd h2 h1

/-- `m` is the least positive integer with `m Q` in the group generated by `P`, and `m Q = a P` -/
def IsRelation (P Q : G) (m a : ℤ) : Prop :=
  0 < m ∧ m • Q = a • P ∧ ∀ m', 0 < m' → (∃ b : ℤ, m' • Q = b • P) → m ≤ m'

/-- **C68 (linear_relation).** For points of finite order which are not coprime (or `Q = 0`) the
result `m` and `a` are as documented: `m` is least positive with `m Q` a multiple of `P`, and
`m Q = a P`.  Missing: coprime orders, where the claim fails. -/
theorem C68_linear_relation_partial {key : G → κ} (hkey : KeyOk key) {posdivs : ℤ → List ℤ}
    (hpd : PosdivsOk posdivs) (ord : G → ℤ) (P Q : G) (hoP : ord P = addOrderOf P)
    (hoQ : ord Q = addOrderOf Q) (hP : 0 < addOrderOf P) (hQ : 0 < addOrderOf Q)
    (hgcd : Nat.gcd (addOrderOf P) (addOrderOf Q) ≠ 1 ∨ Q = 0) :
    IsRelation P Q (linearRelation key posdivs ord P Q).1
      (linearRelation key posdivs ord P Q).2 := by
  unfold linearRelation
  simp only []
  rw [hoP, hoQ]
  obtain ⟨g, hg⟩ : ∃ g : ℤ, g = Int.gcd (addOrderOf P) (addOrderOf Q) := ⟨_, rfl⟩
  rw [← hg]
  by_cases h1 : g = 1
  · rw [if_pos h1]
    have hQ0 : Q = 0 := by
      refine hgcd.resolve_left (fun h => h ?_)
      have : (Int.gcd (addOrderOf P) (addOrderOf Q) : ℤ) = 1 := by rw [← hg, h1]
      rw [Int.gcd_natCast_natCast] at this
      exact_mod_cast this
    exact ⟨by omega, by rw [hQ0]; simp, fun m' h _ => by omega⟩
  rw [if_neg h1]
  obtain ⟨n, hn⟩ : ∃ n : ℤ, n = addOrderOf P := ⟨_, rfl⟩
  obtain ⟨m, hm⟩ : ∃ m : ℤ, m = addOrderOf Q := ⟨_, rfl⟩
  have hn0 : 0 < n := by omega
  have hm0 : 0 < m := by omega
  rw [← hn, ← hm] at hg ⊢
  have hg0 : 0 < g := by
    have := Int.gcd_pos_of_ne_zero_left m (a := n) (by omega)
    omega
  obtain ⟨n1, hn1⟩ : g ∣ n := hg ▸ Int.gcd_dvd_left n m
  obtain ⟨m1, hm1⟩ : g ∣ m := hg ▸ Int.gcd_dvd_right n m
  have hn10 : 0 < n1 := by nlinarith
  have hm10 : 0 < m1 := by nlinarith
  have hcop : IsCoprime n1 m1 := by
    rw [Int.isCoprime_iff_gcd_eq_one]
    have : Int.gcd n m = g.natAbs * Int.gcd n1 m1 := by rw [hn1, hm1, Int.gcd_mul_left]
    have h2 : g.natAbs * 1 = g.natAbs * Int.gcd n1 m1 := by rw [← this, mul_one]; omega
    exact (Nat.eq_of_mul_eq_mul_left (by omega) h2).symm
  have en : n / g = n1 := by rw [hn1, Int.mul_ediv_cancel_left _ (by omega)]
  have em : m / g = m1 := by rw [hm1, Int.mul_ediv_cancel_left _ (by omega)]
  rw [en, em]
  have hnP : n • P = 0 := by rw [hn, natCast_zsmul, addOrderOf_nsmul_eq_zero]
  have hmQ : m • Q = 0 := by rw [hm, natCast_zsmul, addOrderOf_nsmul_eq_zero]
  have hgP1 : g • (n1 • P) = 0 := by rw [smul_smul, ← hn1, hnP]
  have hgQ1 : g • (m1 • Q) = 0 := by rw [smul_smul, ← hm1, hmQ]
  have hmem : ∀ d, d ∈ (posdivs g).insertionSort (· ≤ ·) ↔ (0 < d ∧ d ∣ g) := fun d => by
    rw [List.mem_insertionSort, hpd g (by omega)]
  obtain ⟨h, hh, e, hs, hmin⟩ := relLoop_spec key (n1 • P) (m1 • Q) g
    ((posdivs g).insertionSort (· ≤ ·)) g
    (List.pairwise_insertionSort (fun a b : ℤ => a ≤ b) (posdivs g))
    ⟨g, (hmem g).2 ⟨hg0, dvd_refl _⟩, (bg_mem hkey hg0 hgP1).2 ⟨0, by rw [hgQ1, zero_smul]⟩⟩
  rw [e]
  simp only []
  have hsol := bg_sol hkey hg0 hs
  have hrel : (h * m1) • Q = (bg key (n1 • P) (h • m1 • Q) 0 (g - 1) * n1) • P := by
    rw [mul_smul, mul_smul, hsol]
  rw [if_neg (not_not.2 hrel)]
  refine ⟨mul_pos ((hmem h).1 hh).1 hm10, hrel, ?_⟩
  rintro m' hm' ⟨b, hb⟩
  simp only []
  have d1 : m1 ∣ m' := by
    have h2 : m ∣ n * m' := by
      rw [hm, addOrderOf_dvd_iff_zsmul_eq_zero, mul_smul, hb, smul_comm, hnP, smul_zero]
    rw [hn1, hm1, mul_assoc] at h2
    have h3 : m1 ∣ n1 * m' := (mul_dvd_mul_iff_left (by omega)).1 h2
    exact hcop.symm.dvd_of_dvd_mul_left h3
  obtain ⟨t, ht⟩ := d1
  have ht0 : 0 < t := by nlinarith
  have d2 : n1 ∣ b := by
    have h2 : n ∣ g * b := by
      rw [hn, addOrderOf_dvd_iff_zsmul_eq_zero, mul_smul, ← hb, ht, smul_smul]
      rw [show g * (m1 * t) = t * m by rw [hm1]; ring, mul_smul, hmQ, smul_zero]
    rw [hn1] at h2
    exact (mul_dvd_mul_iff_left (by omega)).1 h2
  obtain ⟨s, hs'⟩ := d2
  have htQ : t • (m1 • Q) = s • (n1 • P) := by
    rw [smul_smul, smul_smul, mul_comm t, mul_comm s, ← ht, ← hs', hb]
  have hd0 : 0 < (Int.gcd t g : ℤ) := by
    have := Int.gcd_pos_of_ne_zero_left g (a := t) (by omega)
    omega
  have hle : h ≤ Int.gcd t g := by
    refine hmin _ ((hmem _).2 ⟨hd0, Int.gcd_dvd_right t g⟩) ((bg_mem hkey hg0 hgP1).2
      ⟨Int.gcdA t g * s, ?_⟩)
    rw [Int.gcd_eq_gcd_ab t g, add_smul, mul_comm g, mul_smul _ g, hgQ1, smul_zero, add_zero,
      mul_comm t, mul_smul _ t, htQ, mul_smul]
  have hlet : (Int.gcd t g : ℤ) ≤ t := Int.le_of_dvd ht0 (Int.gcd_dvd_left t g)
  rw [ht, mul_comm h]
  exact mul_le_mul_of_nonneg_left (hle.trans hlet) hm10.le

/-- For points of coprime orders the result is 1 with `a = 0`, although the least `m` is the order of
`Q` (as the comment in the code says): the answer is wrong whenever `Q ≠ 0`. -/
theorem C68_linear_relation_coprime (key : G → κ) (posdivs : ℤ → List ℤ) (ord : G → ℤ) (P Q : G)
    (hoP : ord P = addOrderOf P) (hoQ : ord Q = addOrderOf Q)
    (hgcd : Nat.gcd (addOrderOf P) (addOrderOf Q) = 1) (hQ : Q ≠ 0) :
    linearRelation key posdivs ord P Q = (1, 0) ∧ ¬ IsRelation P Q 1 0 := by
  refine ⟨?_, fun h => hQ ?_⟩
  · unfold linearRelation
    simp only []
    rw [hoP, hoQ, Int.gcd_natCast_natCast, hgcd]
    rfl
  · have := h.2.1
    simpa using this

/-- `2P` has order 3 and is `2` times `P` -/
example : linearRelation xKey (fun _ => [3, 1]) (fun Q => if Q = p7 then 6 else 3) p7 (2 • p7) =
    (1, 2) := by decide +kernel

/-- the hypotheses of `C68_linear_relation_coprime` -/
example : Nat.gcd (addOrderOf (3 • p7)) (addOrderOf (2 • p7)) = 1 ∧ 2 • p7 ≠ 0 :=
  ⟨by rw [p7_order_two, p7_order_three]; rfl, by decide +kernel⟩

/-- a function meeting the contract of `posdivs` -/
def posdivs0 (n : ℤ) : List ℤ :=
  ((List.range (n.natAbs + 1)).filter (fun d => 0 < d ∧ d ∣ n.natAbs)).map (fun d : ℕ => (d : ℤ))

example : PosdivsOk posdivs0 := by
  intro n hn d
  simp only [posdivs0, List.mem_map, List.mem_filter, List.mem_range, decide_eq_true_eq]
  constructor
  · rintro ⟨k, ⟨-, h0, hd⟩, rfl⟩
    exact ⟨by omega, Int.natCast_dvd.2 hd⟩
  · rintro ⟨h0, hd⟩
    have h1 : d.natAbs ∣ n.natAbs := Int.natAbs_dvd_natAbs.2 hd
    exact ⟨d.natAbs, ⟨by have := Nat.le_of_dvd (by omega) h1; omega, by omega, h1⟩, by omega⟩

end Eclib.Pmod
