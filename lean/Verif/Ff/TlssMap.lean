import Mathlib.GroupTheory.Index
import Mathlib.GroupTheory.QuotientGroup.Basic
import Mathlib.GroupTheory.Coset.Card
import Mathlib.Data.ZMod.Basic
import Mathlib.FieldTheory.Finite.Basic
import Verif.Ff.TlssProps
import Verif.Ff.Props
import Verif.Pmod.BgCurve

/-!
# C103: `TLSS::map1point` is a homomorphism from E(F_q) to (Z/p)^rank, so it is zero on p E(F_q)
-/

set_option linter.unusedSectionVars false

namespace Eclib.Ff.Props

open Pmod (Pq coords KeyOk)
open WeierstrassCurve.Affine

variable {F : Type} [Field F] [DecidableEq F] {E : WeierstrassCurve F}

/-- what is claimed of a map `m` of points to integer vectors: it never fails, its values are vectors of length `r` with entries from
0 to `p-1`, and modulo `p` it is a homomorphism of groups -/
def IsMap (p r : ℕ) (m : E.toAffine.Point → Option (List ℤ)) : Prop :=
  (∀ A, ∃ u, m A = some u ∧ u.length = r ∧ ∀ x ∈ u, 0 ≤ x ∧ x < p) ∧
  ∀ A B u v w, m A = some u → m B = some v → m (A + B) = some w → w = List.zipWith (fun x y => (x + y) % (p : ℤ)) u v

/-- C103, root_of_unity: a value which is returned for a divisor `n` of `q-1` is not 1 and its `n`-th power is 1; for a prime `n` it
is a primitive root of unity -/
theorem C103_root [Fintype F] {n : ℕ} {rs : List F} {z : F} (hn : n ∣ Fintype.card F - 1)
    (h : rootOfUnity (Fintype.card F) n rs = some z) : z ≠ 1 ∧ z ^ n = 1 ∧ (n.Prime → IsPrimitiveRoot z n) := by
  unfold rootOfUnity at h
  rw [if_neg (by rw [Nat.mod_eq_zero_of_dvd hn]; exact fun h => h rfl), Option.map_eq_some_iff] at h
  obtain ⟨r, hr, rfl⟩ := h
  have h1 := List.find?_some hr
  simp only [decide_eq_true_eq] at h1
  have h2 : (r ^ ((Fintype.card F - 1) / n)) ^ n = 1 := by
    rw [← pow_mul, Nat.div_mul_cancel hn, FiniteField.pow_card_sub_one_eq_one r h1.1]
  refine ⟨h1.2, h2, fun hp => ?_⟩
  have : Fact n.Prime := ⟨hp⟩
  have ho : orderOf (r ^ ((Fintype.card F - 1) / n)) = n := orderOf_eq_prime h2 h1.2
  exact IsPrimitiveRoot.iff_orderOf.mpr ho

theorem mapM_some {α β : Type} (f : α → Option β) (g : α → β) (l : List α) (h : ∀ a ∈ l, f a = some (g a)) :
    l.mapM f = some (l.map g) := by
  induction l with
  | nil => rfl
  | cons a l ih =>
    rw [List.mapM_cons, h a List.mem_cons_self, ih fun b hb => h b (List.mem_cons_of_mem _ hb)]
    rfl

theorem isMap_of {p : ℕ} {ι : Type} (l : List ι) (ans : ι → E.toAffine.Point → ℤ)
    (φ : ι → E.toAffine.Point →+ ZMod p) (h : ∀ i ∈ l, ∀ A, (0 ≤ ans i A ∧ ans i A < p) ∧ φ i A = (ans i A : ZMod p))
    (m : E.toAffine.Point → Option (List ℤ)) (hm : ∀ A, m A = some (l.map fun i => ans i A)) : IsMap p l.length m := by
  refine ⟨fun A => ⟨_, hm A, List.length_map _, fun x hx => ?_⟩, fun A B u v w hu hv hw => ?_⟩
  · obtain ⟨i, hi, rfl⟩ := List.mem_map.mp hx
    exact (h i hi A).1
  · rw [hm] at hu hv hw
    cases hu; cases hv; cases hw
    rw [List.zipWith_map, List.zipWith_self]
    refine List.map_congr_left fun i hi => ?_
    have hA := h i hi A
    have hB := h i hi B
    have hAB := h i hi (A + B)
    have : ((ans i (A + B) : ℤ) : ZMod p) = ((ans i A + ans i B : ℤ) : ZMod p) := by
      rw [← hAB.2, map_add, hA.2, hB.2, Int.cast_add]
    rw [ZMod.intCast_eq_intCast_iff] at this
    rw [← this, Int.emod_eq_of_lt hAB.1.1 hAB.1.2]

/-- **C103** for the Tate-Lichtenbaum maps: for a prime `p` dividing `q-1`, and a list of points of order `p` which does not have just
one point, `map1point` is a homomorphism `E(F_q) → (Z/p)^rank`; this holds at all points, among them the points `T`, where the function
vanishes -/
theorem C103_tl [Fintype F] {κ : Type} [DecidableEq κ] (key : E.toAffine.Point → κ) {p : ℕ} (hp : p.Prime)
    (hq : p ∣ Fintype.card F - 1) {rs : List F} {ζ : F} (hζ : rootOfUnity (Fintype.card F) p rs = some ζ)
    (Pi : List E.toAffine.Point) (hPi : ∀ T ∈ Pi, T ≠ 0 ∧ p • T = 0) (h1 : Pi.length ≠ 1) (n n1 : ℤ) :
    IsMap p Pi.length (map1point key p (Fintype.card F) (rootsOfUnity ζ p) Pi n n1) := by
  have hz := (C103_root hq hζ).2.2 hp
  have hc : ∀ T : E.toAffine.Point, ∃ (φ : E.toAffine.Point →+ ZMod p) (ans : E.toAffine.Point → ℕ), (T ≠ 0 ∧ p • T = 0) →
      ans 0 = 0 ∧ (∀ A, ans A < p) ∧ (∀ A, φ A = (ans A : ZMod p)) ∧
      ∀ A, A ≠ 0 → tlComp E p ((Fintype.card F - 1) / p) (rootsOfUnity ζ p) (coords T) (coords A) = .some (ans A : ℤ) := fun T => by
    by_cases h : T ≠ 0 ∧ p • T = 0
    · obtain ⟨φ, ans, h2⟩ := comp_hom hz hp hq h.2 h.1
      exact ⟨φ, ans, fun _ => h2⟩
    · exact ⟨0, 0, fun h' => absurd h' h⟩
  choose φ ans hspec using hc
  refine isMap_of Pi (fun T A => (ans T A : ℤ)) φ (fun T hT A => ?_) _ fun A => ?_
  · obtain ⟨-, h3, h4, -⟩ := hspec T (hPi T hT)
    exact ⟨⟨by omega, by have := h3 A; omega⟩, by rw [h4, Int.cast_natCast]⟩
  · unfold map1point
    by_cases hA : A = 0
    · rw [if_pos hA]
      congr 1
      refine List.map_congr_left fun T hT => ?_
      rw [hA, (hspec T (hPi T hT)).1, Nat.cast_zero]
    · rw [if_neg hA]
      match Pi, h1 with
      | [], _ => rfl
      | [_], h1 => exact absurd rfl h1
      | T1 :: T2 :: l, _ => exact mapM_some _ _ _ fun T hT => (hspec T (hPi T hT)).2.2.2 A hA

/-- **C103** for cyclic p-torsion: the discrete logarithm of `(n1/p) A` -/
theorem C103_cyclic {κ : Type} [DecidableEq κ] {key : E.toAffine.Point → κ} (hkey : KeyOk key) {p q : ℕ} (hp : p.Prime) (mup : List F)
    {P1 : E.toAffine.Point} (h0 : P1 ≠ 0) (hP : p • P1 = 0) (hcyc : ∀ A : E.toAffine.Point, p • A = 0 → ∃ k : ℤ, A = k • P1)
    {n n1 : ℤ} (hdvd : (p : ℤ) ∣ if n1 = 0 then n else n1) (hn : ∀ A : E.toAffine.Point, (if n1 = 0 then n else n1) • A = 0) :
    IsMap p 1 (map1point key p q mup [P1] n n1) ∧
    ((∃ A : E.toAffine.Point, ((if n1 = 0 then n else n1) / p) • A ≠ 0) → Finite E.toAffine.Point →
      ∀ A, map1point key p q mup [P1] n n1 A = some [0] ↔ ∃ B, A = p • B) := by
  set N := if n1 = 0 then n else n1 with hN
  have hpos : (0 : ℤ) < p := by exact_mod_cast hp.pos
  obtain ⟨c, hc⟩ := hdvd
  have hNc : N / p = c := by rw [hc, Int.mul_ediv_cancel_left _ hpos.ne']
  have : Fact p.Prime := ⟨hp⟩
  have hord : addOrderOf P1 = p := addOrderOf_eq_prime hP h0
  have hkill : ∀ A : E.toAffine.Point, p • (c • A) = 0 := fun A => by
    rw [← natCast_zsmul, smul_smul, ← hc, hn]
  -- the logarithm
  have hlog : ∀ A : E.toAffine.Point, ∃ k : ℤ, (0 ≤ k ∧ k < p) ∧ k • P1 = c • A ∧
      map1point key p q mup [P1] n n1 A = some [k] := fun A => by
    unfold map1point
    by_cases hA : A = 0
    · exact ⟨0, ⟨le_rfl, hpos⟩, by rw [hA, zero_smul, smul_zero], by rw [if_pos hA]; rfl⟩
    · rw [if_neg hA]
      simp only [← hN, hNc]
      by_cases hcA : c • A = 0
      · exact ⟨0, ⟨le_rfl, hpos⟩, by rw [hcA, zero_smul], by rw [if_pos hcA]⟩
      · rw [if_neg hcA]
        obtain ⟨k, hk⟩ := hcyc _ (hkill A)
        have hk' : (k % p) • P1 = c • A := by
          rw [hk, ← hord, mod_addOrderOf_zsmul]
        have e1 := Int.emod_nonneg k hpos.ne'
        have e2 := Int.emod_lt_of_pos k hpos
        rcases Pmod.C66_bg hkey P1 (c • A) 0 p le_rfl hpos.le (Or.inl rfl) with ⟨l1, -, l3, l4⟩ | ⟨-, l2⟩
        · exact ⟨_, ⟨l1, lt_of_le_of_lt (l4 _ e1 hk') e2⟩, l3, rfl⟩
        · refine absurd hk' (l2 _ e1 ?_)
          split <;> omega
  choose k hk1 hk2 hk3 using hlog
  have hzero : ∀ j : ℤ, j • P1 = 0 ↔ (p : ℤ) ∣ j := fun j => by
    rw [← hord]; exact addOrderOf_dvd_iff_zsmul_eq_zero.symm
  have hadd : ∀ A B, ((k (A + B) : ℤ) : ZMod p) = (k A : ZMod p) + (k B : ZMod p) := fun A B => by
    rw [← Int.cast_add, ZMod.intCast_eq_intCast_iff, Int.modEq_iff_dvd, ← hzero, sub_smul, add_smul, hk2, hk2, hk2, smul_add, sub_self]
  let φ : E.toAffine.Point →+ ZMod p := AddMonoidHom.mk' (fun A => (k A : ZMod p)) hadd
  refine ⟨isMap_of [()] (fun _ => k) (fun _ => φ) (fun _ _ A => ⟨hk1 A, rfl⟩) _ fun A => hk3 A, ?_⟩
  intro hex hfin A
  have hiff : ∀ A, map1point key p q mup [P1] n n1 A = some [0] ↔ φ A = 0 := fun A => by
    rw [hk3]
    change _ ↔ ((k A : ℤ) : ZMod p) = 0
    rw [ZMod.intCast_zmod_eq_zero_iff_dvd]
    constructor
    · intro h
      have : k A = 0 := by simpa using h
      rw [this]; exact dvd_zero _
    · intro h
      rw [Int.eq_zero_of_dvd_of_nonneg_of_lt (hk1 A).1 (hk1 A).2 h]
  rw [hiff]
  constructor
  · -- the kernel and pE have the same index
    intro hA
    rw [hNc] at hex
    obtain ⟨A0, hA0⟩ := hex
    let mul : E.toAffine.Point →+ E.toAffine.Point := nsmulAddMonoidHom p
    have hle : mul.range ≤ φ.ker := by
      rintro _ ⟨B, rfl⟩
      change φ (p • B) = 0
      rw [map_nsmul, nsmul_eq_mul, ZMod.natCast_self, zero_mul]
    have hker : mul.ker = AddSubgroup.zmultiples P1 := by
      ext B
      rw [AddMonoidHom.mem_ker, AddSubgroup.mem_zmultiples_iff]
      constructor
      · intro h
        obtain ⟨j, hj⟩ := hcyc B h
        exact ⟨j, hj.symm⟩
      · rintro ⟨j, rfl⟩
        change p • (j • P1) = 0
        rw [smul_comm, hP, smul_zero]
    have hcker : Nat.card mul.ker = p := by
      rw [hker, Nat.card_zmultiples, hord]
    have hsurj : Function.Surjective φ := by
      have hne : φ.range ≠ ⊥ := fun h => by
        have : φ A0 = 0 := by
          have h2 : φ A0 ∈ φ.range := ⟨A0, rfl⟩
          rw [h] at h2
          exact h2
        rw [← hiff, hk3] at this
        have h2 : k A0 = 0 := by simpa using this
        exact hA0 (by rw [← hk2, h2, zero_smul])
      have hdv := AddSubgroup.card_addSubgroup_dvd_card φ.range
      rw [Nat.card_zmod] at hdv
      rcases (Nat.dvd_prime hp).mp hdv with h | h
      · exact absurd (AddSubgroup.card_eq_one.mp h) hne
      · have : φ.range = ⊤ := AddSubgroup.eq_top_of_card_eq _ (by rw [h, Nat.card_zmod])
        exact AddMonoidHom.range_eq_top.mp this
    have i1 : φ.ker.index = p := by
      rw [AddSubgroup.index_ker, AddMonoidHom.range_eq_top.mpr hsurj, Nat.card_congr AddSubgroup.topEquiv.toEquiv, Nat.card_zmod]
    have i2 : mul.range.index = p := by
      have e1 := AddSubgroup.card_mul_index mul.range
      have e2 := AddSubgroup.card_mul_index mul.ker
      rw [AddSubgroup.index_ker, hcker] at e2
      have hpos : 0 < Nat.card mul.range := Nat.card_pos
      rw [← e2, mul_comm] at e1
      exact Nat.eq_of_mul_eq_mul_right hpos e1
    have heq : mul.range = φ.ker := by
      refine AddSubgroup.eq_of_le_of_card_ge hle ?_
      have e1 := AddSubgroup.card_mul_index mul.range
      have e2 := AddSubgroup.card_mul_index φ.ker
      rw [i2, ← e2, i1] at e1
      exact (Nat.eq_of_mul_eq_mul_right hp.pos e1).ge
    have : A ∈ mul.range := by rw [heq]; exact hA
    obtain ⟨B, hB⟩ := this
    exact ⟨B, hB.symm⟩
  · rintro ⟨B, rfl⟩
    rw [map_nsmul, nsmul_eq_mul, ZMod.natCast_self, zero_mul]

/-- C103, for the use in saturation: a map of this kind is zero on the multiples of `p`; so a combination of points which is `p` times a
point gives a relation modulo `p` between their images -/
theorem C103_zero {p r : ℕ} {m : E.toAffine.Point → Option (List ℤ)} (hm : IsMap p r m) (A : E.toAffine.Point) :
    m (p • A) = some (List.replicate r 0) := by
  obtain ⟨u, hu, hl, hr⟩ := hm.1 A
  have hz : m 0 = some (List.replicate r 0) := by
    obtain ⟨z, hz, hzl, hzr⟩ := hm.1 0
    have h := hm.2 0 0 z z z hz hz (by rw [add_zero]; exact hz)
    rw [hz]
    congr 1
    refine List.eq_replicate_iff.mpr ⟨hzl, fun x hx => ?_⟩
    obtain ⟨i, hi, rfl⟩ := List.getElem_of_mem hx
    have h2 : z[i] = (z[i] + z[i]) % (p : ℤ) := by
      conv_lhs => rw [List.getElem_of_eq h hi, List.getElem_zipWith]
    have h3 := hzr _ (List.getElem_mem hi)
    by_cases h4 : z[i] + z[i] < p
    · rw [Int.emod_eq_of_lt (by omega) h4] at h2; omega
    · have h5 : (z[i] + z[i]) % (p : ℤ) = z[i] + z[i] - p := by
        rw [← Int.sub_emod_right, Int.emod_eq_of_lt (by omega) (by omega)]
      omega
  have key : ∀ j : ℕ, ∃ w, m (j • A) = some w ∧ w.length = r ∧ ∀ i (h : i < w.length) (h' : i < u.length),
      w[i] = (j * u[i]) % (p : ℤ) := by
    intro j
    induction j with
    | zero =>
      refine ⟨_, by rw [zero_smul]; exact hz, List.length_replicate, fun i h h' => ?_⟩
      simp
    | succ j ih =>
      obtain ⟨w, hw, hwl, hwr⟩ := ih
      obtain ⟨w', hw', hwl', -⟩ := hm.1 ((j + 1) • A)
      have h := hm.2 _ _ _ _ _ hw hu (by rw [← succ_nsmul]; exact hw')
      refine ⟨w', hw', hwl', fun i hi hi' => ?_⟩
      rw [List.getElem_of_eq h hi, List.getElem_zipWith, hwr]
      push_cast
      rw [add_mul, one_mul, Int.emod_add_emod]
  obtain ⟨w, hw, hwl, hwr⟩ := key p
  rw [hw]
  congr 1
  refine List.eq_replicate_iff.mpr ⟨hwl, fun x hx => ?_⟩
  obtain ⟨i, hi, rfl⟩ := List.getElem_of_mem hx
  rw [hwr i hi (by omega), Int.mul_emod_right]

/-! ### the hypotheses can be met -/

/-- y² = x³ + 2 over the field of 7 elements: 9 points, all of order 1 or 3 -/
def e9 : WeierstrassCurve (ZMod 7) := ⟨0, 0, 0, 0, 2⟩

theorem e9_ns {x y : ZMod 7} (h : Pq.onCurve e9 (.pt x y) = true) : e9.toAffine.Nonsingular x y := by
  have h1 := (Pmod.onCurve_iff x y).mp h
  exact (WeierstrassCurve.Affine.equation_iff_nonsingular_of_Δ_ne_zero (by
    change e9.Δ ≠ 0
    simp only [WeierstrassCurve.Δ, WeierstrassCurve.b₂, WeierstrassCurve.b₄, WeierstrassCurve.b₆, WeierstrassCurve.b₈, e9]
    decide)).mp h1

/-- a basis of the 3-torsion -/
def Q1 : e9.toAffine.Point := .some 0 3 (e9_ns (by decide +kernel))
def Q2 : e9.toAffine.Point := .some 3 1 (e9_ns (by decide +kernel))

instance : Fact (Nat.Prime 7) := ⟨by decide⟩

theorem card7 : Fintype.card (ZMod 7) = 7 := ZMod.card 7

/-- the hypotheses of `C103_root` and `C103_tl` hold for p = 3 on this curve with its full 3-torsion -/
example : 3 ∣ Fintype.card (ZMod 7) - 1 ∧ rootOfUnity (Fintype.card (ZMod 7)) 3 [(0 : ZMod 7), 1, 3] = some 2 ∧
    (∀ T ∈ [Q1, Q2], T ≠ 0 ∧ 3 • T = 0) ∧ [Q1, Q2].length ≠ 1 := by
  rw [card7]
  refine ⟨by decide, by decide +kernel, fun T hT => ?_, by decide⟩
  have h3 : ∀ n : ℕ, ∀ A : e9.toAffine.Point, coords (n • A) = Pq.mul e9 n (coords A) := fun n A => by
    rw [← Pmod.coords_mul, natCast_zsmul]
  simp only [List.mem_cons, List.not_mem_nil, or_false] at hT
  rcases hT with rfl | rfl
  · refine ⟨by rintro ⟨⟩, ?_⟩
    rw [← coords_eq_oo, h3]
    change Pq.mul e9 3 (.pt 0 3) = .oo
    decide +kernel
  · refine ⟨by rintro ⟨⟩, ?_⟩
    rw [← coords_eq_oo, h3]
    change Pq.mul e9 3 (.pt 3 1) = .oo
    decide +kernel

/-- the values at the two points: the matrix has determinant not 0 modulo 3, so this map is injective modulo 3 -/
example : map1point (E := e9) coords 3 7 (rootsOfUnity 2 3) [Q1, Q2] 9 3 Q1 = some [0, 1] ∧
    map1point (E := e9) coords 3 7 (rootsOfUnity 2 3) [Q1, Q2] 9 3 Q2 = some [2, 1] := by
  decide +kernel

/-- the hypotheses of `C103_cyclic` hold for p = 2 on `e8`, a cyclic group of order 8 -/
example : T2 ≠ 0 ∧ 2 • T2 = 0 ∧ (∀ A : e8.toAffine.Point, 2 • A = 0 → ∃ k : ℤ, A = k • T2) ∧
    ((2 : ℕ) : ℤ) ∣ (if (0 : ℤ) = 0 then 8 else 0) ∧ (∀ A : e8.toAffine.Point, (if (0 : ℤ) = 0 then (8 : ℤ) else 0) • A = 0) ∧
    ∃ A : e8.toAffine.Point, ((if (0 : ℤ) = 0 then (8 : ℤ) else 0) / ((2 : ℕ) : ℤ)) • A ≠ 0 := by
  refine ⟨by rintro ⟨⟩, ?_, fun A hA => ?_, by decide, fun A => ?_, S8, ?_⟩
  · rw [← coords_eq_oo, nsmul_coords]
    change Pq.mul e8 2 (.pt 0 0) = .oo
    decide +kernel
  · cases A with
    | zero => exact ⟨0, (zero_zsmul T2).symm⟩
    | some x y h =>
      have h1 := (Pmod.onCurve_iff x y).mpr h.1
      have h2 := two_torsion hA
      have h3 : ∀ x y : ZMod 7, Pq.onCurve e8 (.pt x y) = true → 2 * y + e8.a₁ * x + e8.a₃ = 0 → x = 0 ∧ y = 0 := by
        decide +kernel
      obtain ⟨rfl, rfl⟩ := h3 x y h1 h2
      exact ⟨1, by rw [one_smul]; rfl⟩
  · rw [if_pos rfl, ← coords_eq_oo, Pmod.coords_mul]
    cases A with
    | zero => rfl
    | some x y h =>
      have h1 := (Pmod.onCurve_iff x y).mpr h.1
      have h3 : ∀ x y : ZMod 7, Pq.onCurve e8 (.pt x y) = true → Pq.mul e8 8 (.pt x y) = .oo := by decide +kernel
      exact h3 x y h1
  · rw [if_pos rfl, Ne, ← coords_eq_oo, Pmod.coords_mul]
    change Pq.mul e8 (8 / 2) (.pt 3 3) ≠ .oo
    decide +kernel

end Eclib.Ff.Props
