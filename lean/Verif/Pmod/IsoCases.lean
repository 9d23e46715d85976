import Verif.Pmod.IsoProps

/-!
# C69: a wrong result, a dependent second generator, and concrete runs
-/

namespace Eclib.Pmod

open WeierstrassCurve

set_option linter.unusedSectionVars false

/-- the points of order 2 of a cyclic group -/
theorem IsBasis.two_torsion {G : Type} [AddCommGroup G] [DecidableEq G] {P T : G} {m n : ℤ}
    (h : IsBasis P m 0 1) (hm : m = 2 * n) (hT : T + T = 0) : T = 0 ∨ T = n • P := by
  obtain ⟨a, b, hab⟩ := h.gen T
  rw [smul_zero, add_zero] at hab
  have h7 : 2 * n ∣ 2 * a := by
    rw [← hm, ← zsmul_eq_zero_iff h.ord1, mul_smul, ← hab, two_smul, hT]
  obtain ⟨c, hc⟩ := Int.dvd_of_mul_dvd_mul_left (by omega : (2 : ℤ) ≠ 0) h7
  have h8 : n • P + n • P = 0 := by
    rw [← add_smul, zsmul_eq_zero_iff h.ord1, hm]
    exact ⟨1, by ring⟩
  rcases Int.even_or_odd' c with ⟨i, hi | hi⟩
  · left
    rw [hab, hc, hi, show n * (2 * i) = i * (n + n) by ring, mul_smul, add_smul, h8, smul_zero]
  · right
    rw [hab, hc, hi, show n * (2 * i + 1) = i * (n + n) + n by ring, add_smul, mul_smul, add_smul, h8,
      smul_zero, zero_add]

instance : Fact (Nat.Prime 139) := ⟨by decide +kernel⟩

/-- y² = x³ + 1 over F_139, with group of type 78 × 2 -/
def ex139 : WeierstrassCurve (ZMod 139) := ⟨0, 0, 0, 0, 1⟩

theorem ex139_delta : ex139.Δ ≠ 0 := by decide +kernel

/-- the point (7,30), of order 78 -/
def p139 : ex139.toAffine.Point := .some 7 30
  ((Affine.equation_iff_nonsingular_of_Δ_ne_zero ex139_delta).1
    ((onCurve_iff 7 30).1 (by decide +kernel)))

/-- a point of order 2 which is not a multiple of `p139` -/
def t139 : ex139.toAffine.Point := .some 43 0
  ((Affine.equation_iff_nonsingular_of_Δ_ne_zero ex139_delta).1
    ((onCurve_iff 43 0).1 (by decide +kernel)))

/-- the point (41,16), of order 39 -/
def q139 : ex139.toAffine.Point := .some 41 16
  ((Affine.equation_iff_nonsingular_of_Δ_ne_zero ex139_delta).1
    ((onCurve_iff 41 16).1 (by decide +kernel)))

theorem p139_facts : 78 • p139 = 0 ∧ 39 • p139 ≠ 0 ∧ 39 • p139 ≠ t139 ∧ t139 ≠ 0 ∧ 26 • p139 ≠ 0 ∧
    6 • p139 ≠ 0 ∧ t139 + t139 = 0 ∧ 13 • q139 ≠ 0 ∧ 3 • q139 ≠ 0 ∧
    39 • q139 = 0 ∧ q139 = -(2 • p139) := by
  decide +kernel

theorem p139_order : addOrderOf p139 = 78 := by
  obtain ⟨h1, h2, -, -, h3, h4, -⟩ := p139_facts
  refine addOrderOf_eq_of_nsmul_and_div_prime_nsmul (by omega) h1 (fun p hp hd => ?_)
  have : p = 2 ∨ p = 3 ∨ p = 13 := by
    have h5 : p ∣ 2 * (3 * 13) := hd
    rcases (Nat.Prime.dvd_mul hp).1 h5 with h6 | h6
    · exact Or.inl ((Nat.prime_dvd_prime_iff_eq hp (by decide)).1 h6)
    · rcases (Nat.Prime.dvd_mul hp).1 h6 with h7 | h7
      · exact Or.inr (Or.inl ((Nat.prime_dvd_prime_iff_eq hp (by decide)).1 h7))
      · exact Or.inr (Or.inr ((Nat.prime_dvd_prime_iff_eq hp (by decide)).1 h7))
  rcases this with rfl | rfl | rfl
  · exact h2
  · exact h3
  · exact h4

theorem p139_order_two : addOrderOf q139 = 39 := by
  rw [p139_facts.2.2.2.2.2.2.2.2.2.2, addOrderOf_neg, addOrderOf_nsmul' _ (by omega), p139_order]; rfl

/-- eleven times a point of odd order, then a point of order 78; both points can be results of
`random_point` (see the example in LegProps) -/
def rnd139 (n : ℕ) : ex139.toAffine.Point := if n ≤ 10 then q139 else p139

/-- **C69 fails.** For q = 139 (not a counted field) and the points `rnd139` the result is `n1 = 78`,
`n2 = 1`, whatever the Weil pairing and the other library functions are; but the group is not cyclic:
the point `t139` of order 2 is not a multiple of `P1`.  After ten points of order 39 the only
possible `n2` is 3; when a point of order 78 turns up, `(3*39)/78` is not exact. -/
theorem C69_iso_type_wrong {K : Type} [Monoid K] [DecidableEq K] {pdivs : ℤ → List ℤ}
    (hpd : Curve.PdivsOk pdivs) {ord : ex139.toAffine.Point → ℤ} (hord : ∀ Q, ord Q = addOrderOf Q)
    (wp : ex139.toAffine.Point → ex139.toAffine.Point → ℤ → K)
    (other2 : ex139.toAffine.Point → Option ex139.toAffine.Point) (leg : ℤ) (fuel : ℕ)
    (hf : 163 ≤ fuel) :
    isoType xKey pdivs fuel ord wp other2 rnd139 139 leg = some (p139, 78, 0, 1) ∧
    ¬ IsBasis p139 78 0 1 := by
  obtain ⟨h1, h2, h3, h4, -, -, h5, -, -, h6, -⟩ := p139_facts
  constructor
  · have hb : isoBounds 139 leg = (117, 163) := by rw [isoBounds, if_neg (by decide)]; decide +kernel
    have hfirst : isoFirst xKey pdivs fuel 139 leg (rnd139 0) = some 39 := by
      rw [isoFirst, if_neg (by decide), hb]
      have := C67_order_bounds xKey_ok hpd q139 117 163 (by omega)
        ⟨117, by omega, by omega, by decide +kernel⟩ fuel (by omega)
      rw [p139_order_two] at this
      exact this
    obtain ⟨f, rfl⟩ : ∃ f, fuel = f + 11 := ⟨fuel - 11, by omega⟩
    have hlist : n2list 39 117 163 139 = [3] := by decide +kernel
    have hmerge : merge1 ord q139 39 q139 = (q139, 39) := by
      rw [merge1, if_pos (by exact_mod_cast h6)]
    have hstep : ∀ g n, n ≤ 10 → isoLoop1 ord rnd139 117 163 139 (g + 1) n q139 39 =
        isoLoop1 ord rnd139 117 163 139 g (n + 1) q139 39 := by
      intro g n hn
      rw [isoLoop1, if_pos (Or.inl ⟨hn, by omega⟩), rnd139, if_pos hn, hmerge]
    have hloop : isoLoop1 ord rnd139 117 163 139 (f + 11) 1 q139 39 =
        some (11, q139, 39) := by
      rw [hstep _ 1 (by omega), hstep _ 2 (by omega), hstep _ 3 (by omega), hstep _ 4 (by omega),
        hstep _ 5 (by omega), hstep _ 6 (by omega), hstep _ 7 (by omega), hstep _ 8 (by omega),
        hstep _ 9 (by omega), hstep _ 10 (by omega), isoLoop1, hlist,
        if_neg (by intro h; rcases h with h | h; omega; exact h rfl)]
    have hm2 : merge2 xKey pdivs (f + 11) ord wp ⟨q139, 39, 0, 1, 3⟩ p139 =
        some ⟨p139, 78, 0, 1, 1⟩ := by
      rw [merge2]
      simp only []
      have n1 : (1 : ℤ) • p139 ≠ 0 := by rw [one_smul]; intro h; rw [h] at h2; exact h2 (by simp)
      have e39 : (39 : ℤ) • p139 ≠ 0 := by exact_mod_cast h2
      have n2 : ((39 : ℤ) / 1) • ((1 : ℤ) • p139) ≠ 0 := by
        rw [one_smul]; exact e39
      rw [if_neg n1, if_pos n2, merge1, if_neg e39, hord, p139_order]
      decide +kernel
    rw [isoType, hfirst]
    simp only []
    rw [hb]
    simp only []
    have hr0 : rnd139 0 = q139 := rfl
    rw [hr0, hloop]
    simp only []
    rw [hlist]
    rw [if_neg (by decide), isoStart, if_neg (by decide)]
    have hr1 : rnd139 11 = p139 := rfl
    rw [isoLoop2, if_neg (by decide), hr1]
    have e3 : ([3] : List ℤ).headD 0 = 3 := rfl
    rw [e3, hm2]
    simp only []
    rw [show f + 10 = (f + 9) + 1 by omega, isoLoop2, if_pos rfl]
  · intro h
    rcases h.two_torsion (n := 39) rfl h5 with h7 | h7
    · exact h4 h7
    · exact h3 (by rw [h7]; exact_mod_cast rfl)

/-! ### merge_points_2 on the group Z/4 × Z/4 -/

/-- the group of type 4 × 4 -/
abbrev G44 := ZMod 4 × ZMod 4

/-- a key that tells apart all pairs `±a` -/
def key44 (a : G44) : Sym2 G44 := s(a, -a)

theorem key44_ok : KeyOk key44 := by
  unfold KeyOk
  decide +kernel

/-- the determinant as pairing of order 4 -/
def wp44 (S T : G44) (N : ℤ) : Multiplicative (ZMod 4) :=
  if N = 4 then Multiplicative.ofAdd (S.1 * T.2 - S.2 * T.1) else 1

theorem wp44_ok : WeilOk wp44 := by
  refine ⟨fun N S T T' _ _ _ _ => ?_, fun N S _ _ => ?_, fun N S _ _ => ?_⟩ <;> unfold wp44 <;>
    split_ifs
  · rw [← ofAdd_add]
    congr 1
    simp only [Prod.fst_add, Prod.snd_add]
    ring
  · rfl
  · simp
  · rfl
  · rw [mul_comm, sub_self]
    rfl
  · rfl

/-- **C69 (independence).** `merge_points_2` need not give a `P2` independent of `P1`, as its comment
says: here the new `P2 = (2,0)`, with `n2 = 2`, is twice `P1 = (1,0)`. -/
theorem C69_merge2_dependent : merge2 key44 (fun _ => [2]) 16 (fun _ => 4) wp44
      ⟨((1, 0) : G44), 4, 0, 1, 4⟩ (1, 2) = some ⟨(1, 0), 4, (2, 0), 2, 4⟩ ∧
    ((2, 0) : G44) = 2 • (1, 0) := by decide +kernel

/-- a whole run: q = 17, where the points are counted; the second generator is found in two steps,
through the dependent point -/
example : isoType key44 (fun _ => [2]) 16 (fun _ => 4) wp44 (fun _ => none)
    (fun n => if n ≤ 10 then ((1, 0) : G44) else if n = 11 then (1, 2) else (1, 1)) 17 16 =
    some ((1, 0), 4, (1, 1), 4) := by decide +kernel

end Eclib.Pmod
