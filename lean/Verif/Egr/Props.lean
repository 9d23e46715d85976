import Verif.Egr.Cyclic
import Mathlib.Algebra.Group.Subgroup.Lattice
import Mathlib.Algebra.Group.Subgroup.ZPowers.Lemmas

/-!
# C109: the subgroup of points with good reduction
-/

namespace Eclib.Egr

variable {A : Type} [AddCommGroup A]

/-! ## Specification -/

namespace EgrSpec

/-- the subgroup generated by the first `n` points of the list -/
def span (l : ℕ → A) (n : ℕ) : AddSubgroup A := AddSubgroup.closure {P | ∃ i < n, l i = P}

/-- the orders of the cyclic factors of the component group, from the reduction data: at the real place the number of components; at a
prime of good reduction the group is trivial; for type I*_m with `m` even (code `10m + 1`) it is not cyclic; otherwise it is cyclic of
order the Tamagawa number -/
def IsCG (E : Env A) (p : ℤ) (l : List ℕ) : Prop :=
  (p = 0 → l = [E.conncomp]) ∧ (p ≠ 0 → E.reduct p = none → l = [1]) ∧
    (p ≠ 0 → ∀ cp code, E.reduct p = some (cp, code) →
      ((∃ m : ℕ, code = 10 * m + 1 ∧ Even m) → l = [2, 2]) ∧ ((¬ ∃ m : ℕ, code = 10 * m + 1 ∧ Even m) → l = [cp]))

/-- the assumption on a place `p`: the points of good reduction are the kernel of a map to the component group (or a subgroup of it) -/
def PlaceOk (E : Env A) (p : ℤ) : Prop :=
  (∃ (N : ℕ) (φ : A →+ ZMod N), IsCG E p [N] ∧ CycOk E p N φ) ∨
    (IsCG E p [2, 2] ∧ ∃ φ : A →+ ZMod 2 × ZMod 2, ∀ P, E.good p P = true ↔ φ P = 0)

/-- `K` is the set of points of good reduction at `p` -/
def IsGood (E : Env A) (p : ℤ) (K : AddSubgroup A) : Prop := ∀ P, P ∈ K ↔ E.good p P = true

end EgrSpec

open EgrSpec

/-! ## The component group -/

theorem isCG_iff {E : Env A} {p : ℤ} {l : List ℕ} : IsCG E p l ↔ componentGroup E p = l := by
  unfold IsCG componentGroup
  by_cases h : p = 0
  · simp [h, eq_comm]
  rw [if_neg h]
  cases hr : E.reduct p with
  | none => simp [h, eq_comm]
  | some x =>
    obtain ⟨cp, code⟩ := x
    have key : (∃ m : ℕ, code = 10 * m + 1 ∧ Even m) ↔ (code.tmod 10 = 1 ∧ ((code - 1).tdiv 10).tmod 2 = 0) := by
      constructor
      · rintro ⟨m, rfl, k, rfl⟩
        rw [Int.tmod_eq_emod_of_nonneg (by omega), Int.tdiv_eq_ediv_of_nonneg (by omega), Int.tmod_eq_emod_of_nonneg (by omega)]
        omega
      · rintro ⟨h1, h2⟩
        have hpos : 0 < code := by
          rcases lt_or_ge 0 code with h3 | h3
          · exact h3
          · have h4 : Int.tmod code 10 = -Int.tmod (-code) 10 := by rw [Int.neg_tmod, neg_neg]
            have h5 := Int.tmod_nonneg 10 (show 0 ≤ -code by omega)
            omega
        rw [Int.tmod_eq_emod_of_nonneg (by omega)] at h1
        rw [Int.tdiv_eq_ediv_of_nonneg (by omega), Int.tmod_eq_emod_of_nonneg (by omega)] at h2
        refine ⟨((code - 1) / 10).toNat, by omega, ?_⟩
        rw [Nat.even_iff]; omega
    simp only [h, Option.some.injEq, Prod.mk.injEq, ne_eq, not_false_eq_true, forall_const, false_imp_iff, true_and, reduceCtorEq]
    constructor
    · intro hh
      have := hh cp code ⟨rfl, rfl⟩
      by_cases hk : ∃ m : ℕ, code = 10 * m + 1 ∧ Even m
      · rw [if_pos (key.1 hk), this.1 hk]
      · rw [if_neg (fun q => hk (key.2 q)), this.2 hk]
    · rintro hh c d ⟨rfl, rfl⟩
      refine ⟨fun hk => ?_, fun hk => ?_⟩
      · rw [← hh, if_pos (key.1 hk)]
      · rw [← hh, if_neg (fun q => hk (key.2 q))]

/-! ## Spans -/

theorem mem_span {l : ℕ → A} {n i : ℕ} (h : i < n) : l i ∈ span l n := AddSubgroup.subset_closure ⟨i, h, rfl⟩

theorem span_le {l : ℕ → A} {n : ℕ} {H : AddSubgroup A} (h : ∀ i < n, l i ∈ H) : span l n ≤ H := by
  unfold span
  rw [AddSubgroup.closure_le]
  rintro P ⟨i, hi, rfl⟩
  exact h i hi

theorem span_eq {l l' : ℕ → A} {n : ℕ} (h : ∀ i < n, l' i ∈ span l n) (h' : ∀ i < n, l i ∈ span l' n) :
    span l' n = span l n := le_antisymm (span_le h) (span_le h')

/-- the subgroup generated by the points from the `k`-th on -/
def tail (l : ℕ → A) (k n : ℕ) : AddSubgroup A := AddSubgroup.closure {P | ∃ i, k ≤ i ∧ i < n ∧ l i = P}

theorem tail_zero (l : ℕ → A) (n : ℕ) : tail l 0 n = span l n := by
  unfold tail span
  congr 1
  ext P
  simp

theorem tail_succ (l : ℕ → A) {k n : ℕ} (h : k < n) : tail l k n = AddSubgroup.zmultiples (l k) ⊔ tail l (k + 1) n := by
  unfold tail
  rw [AddSubgroup.zmultiples_eq_closure, ← AddSubgroup.closure_union]
  congr 1
  ext P
  simp only [Set.mem_ofPred_eq, Set.mem_union, Set.mem_singleton_iff]
  constructor
  · rintro ⟨i, h1, h2, h3⟩
    rcases h1.eq_or_lt with h4 | h4
    · left; rw [← h3, h4]
    · right; exact ⟨i, h4, h2, h3⟩
  · rintro (h1 | ⟨i, h1, h2, h3⟩)
    · exact ⟨k, le_refl k, h, h1.symm⟩
    · exact ⟨i, by omega, h2, h3⟩

theorem tail_le_ker {C : Type} [AddCommGroup C] {φ : A →+ C} {l : ℕ → A} {k n : ℕ}
    (h : ∀ i, k ≤ i → i < n → φ (l i) = 0) : tail l k n ≤ φ.ker := by
  unfold tail
  rw [AddSubgroup.closure_le]
  rintro P ⟨i, h1, h2, rfl⟩
  exact h i h1 h2

theorem tail_congr {l l' : ℕ → A} {k n : ℕ} (h : ∀ i, k ≤ i → i < n → l i = l' i) : tail l k n = tail l' k n := by
  unfold tail
  congr 1
  ext P
  constructor
  · rintro ⟨i, h1, h2, h3⟩; exact ⟨i, h1, h2, by rw [← h i h1 h2]; exact h3⟩
  · rintro ⟨i, h1, h2, h3⟩; exact ⟨i, h1, h2, by rw [h i h1 h2]; exact h3⟩

/-- one generator with image of order `m`, the others in the kernel -/
theorem final_one {C : Type} [AddCommGroup C] {φ : A →+ C} {l : ℕ → A} {n m : ℕ} (hn : 0 < n)
    (hm : m = addOrderOf (φ (l 0))) (hk : ∀ i, 1 ≤ i → i < n → φ (l i) = 0) :
    span (Function.update l 0 ((m : ℤ) • l 0)) n = span l n ⊓ φ.ker ∧ φ.ker.relIndex (span l n) = m := by
  have ht : tail l 1 n ≤ φ.ker := tail_le_ker hk
  have hs : span l n = AddSubgroup.zmultiples (l 0) ⊔ tail l 1 n := by rw [← tail_zero, tail_succ l hn]
  have hs' : span (Function.update l 0 ((m : ℤ) • l 0)) n = AddSubgroup.zmultiples ((m : ℤ) • l 0) ⊔ tail l 1 n := by
    rw [← tail_zero, tail_succ _ hn, Function.update_self]
    congr 1
    exact tail_congr (fun i h1 _ => Function.update_of_ne (by omega) _ _)
  constructor
  · rw [hs, hs']
    apply le_antisymm
    · refine sup_le ?_ (le_inf le_sup_right ht)
      rw [AddSubgroup.zmultiples_le]
      refine ⟨AddSubgroup.mem_sup_left ⟨m, rfl⟩, ?_⟩
      show φ ((m : ℤ) • l 0) = 0
      rw [map_zsmul, natCast_zsmul, hm, addOrderOf_nsmul_eq_zero]
    · rintro x ⟨h1, h2⟩
      obtain ⟨y, ⟨c, rfl⟩, z, hz, rfl⟩ := AddSubgroup.mem_sup.1 h1
      have hz0 : φ z = 0 := ht hz
      have h3 : φ (c • l 0 + z) = 0 := h2
      rw [map_add, hz0, add_zero, map_zsmul, ← addOrderOf_dvd_iff_zsmul_eq_zero, ← hm] at h3
      obtain ⟨d, hd⟩ := h3
      refine AddSubgroup.mem_sup.2 ⟨_, ⟨d, rfl⟩, z, hz, ?_⟩
      show d • ((m : ℤ) • l 0) + z = c • l 0 + z
      rw [smul_smul, hd, mul_comm]
  · rw [AddSubgroup.relIndex_ker, hs, AddSubgroup.map_sup, AddMonoidHom.map_zmultiples]
    have : (tail l 1 n).map φ = ⊥ := by
      rw [AddSubgroup.map_eq_bot_iff]; exact ht
    rw [this, sup_bot_eq, Nat.card_zmultiples, hm]

theorem two_gen : ∀ c0 c1 : ZMod 2 × ZMod 2, c0 ≠ 0 → c1 ≠ 0 → c0 ≠ c1 →
    (∀ x : ZMod 2 × ZMod 2, ∃ a b : Fin 2, x = (a : ℕ) • c0 + (b : ℕ) • c1) ∧
    (∀ a b : Fin 2, (a : ℕ) • c0 + (b : ℕ) • c1 = 0 → a = 0 ∧ b = 0) := by decide

theorem two_kill : ∀ c : ZMod 2 × ZMod 2, c + c = 0 := by decide

theorem zsmul_mod_two (c : ZMod 2 × ZMod 2) (a : ℤ) : a • c = (a % 2) • c := by
  conv_lhs => rw [← Int.emod_add_mul_ediv a 2]
  rw [add_smul, mul_comm, mul_smul]
  rw [show (2 : ℤ) • c = 0 from by rw [two_smul]; exact two_kill c, smul_zero, add_zero]

/-- two generators with independent images in `(ℤ/2)²`, the others in the kernel -/
theorem final_two {φ : A →+ ZMod 2 × ZMod 2} {l : ℕ → A} {n : ℕ} (hn : 1 < n)
    (h0 : φ (l 0) ≠ 0) (h1 : φ (l 1) ≠ 0) (h01 : φ (l 0) ≠ φ (l 1)) (hk : ∀ i, 2 ≤ i → i < n → φ (l i) = 0) :
    span (Function.update (Function.update l 0 (l 0 + l 0)) 1 (l 1 + l 1)) n = span l n ⊓ φ.ker ∧
      φ.ker.relIndex (span l n) = 4 := by
  obtain ⟨g1, g2⟩ := two_gen _ _ h0 h1 h01
  have ht : tail l 2 n ≤ φ.ker := tail_le_ker hk
  have hs : span l n = AddSubgroup.zmultiples (l 0) ⊔ (AddSubgroup.zmultiples (l 1) ⊔ tail l 2 n) := by
    rw [← tail_zero, tail_succ l (by omega), tail_succ l hn]
  have hs' : span (Function.update (Function.update l 0 (l 0 + l 0)) 1 (l 1 + l 1)) n =
      AddSubgroup.zmultiples (l 0 + l 0) ⊔ (AddSubgroup.zmultiples (l 1 + l 1) ⊔ tail l 2 n) := by
    rw [← tail_zero, tail_succ _ (by omega), tail_succ _ hn]
    have u0 : Function.update (Function.update l 0 (l 0 + l 0)) 1 (l 1 + l 1) 0 = l 0 + l 0 := by
      rw [Function.update_of_ne (by decide), Function.update_self]
    have u1 : Function.update (Function.update l 0 (l 0 + l 0)) 1 (l 1 + l 1) 1 = l 1 + l 1 := Function.update_self ..
    have u2 : tail (Function.update (Function.update l 0 (l 0 + l 0)) 1 (l 1 + l 1)) 2 n = tail l 2 n :=
      tail_congr (fun i h1 _ => by rw [Function.update_of_ne (by omega), Function.update_of_ne (by omega)])
    rw [u0]
    show AddSubgroup.zmultiples (l 0 + l 0) ⊔ (AddSubgroup.zmultiples (Function.update (Function.update l 0 (l 0 + l 0)) 1 (l 1 + l 1) 1) ⊔
      tail (Function.update (Function.update l 0 (l 0 + l 0)) 1 (l 1 + l 1)) 2 n) = _
    rw [u1, u2]
  constructor
  · rw [hs, hs']
    apply le_antisymm
    · refine sup_le ?_ (sup_le ?_ (le_inf (le_sup_of_le_right le_sup_right) ht))
      · rw [AddSubgroup.zmultiples_le]
        refine ⟨AddSubgroup.mem_sup_left ⟨2, two_smul ℤ _⟩, ?_⟩
        show φ (l 0 + l 0) = 0
        rw [map_add]; exact two_kill _
      · rw [AddSubgroup.zmultiples_le]
        refine ⟨AddSubgroup.mem_sup_right (AddSubgroup.mem_sup_left ⟨2, two_smul ℤ _⟩), ?_⟩
        show φ (l 1 + l 1) = 0
        rw [map_add]; exact two_kill _
    · rintro x ⟨hx1, hx2⟩
      obtain ⟨_, ⟨a, rfl⟩, w, hw, rfl⟩ := AddSubgroup.mem_sup.1 hx1
      obtain ⟨_, ⟨b, rfl⟩, z, hz, rfl⟩ := AddSubgroup.mem_sup.1 hw
      have hz0 : φ z = 0 := ht hz
      have h3 : φ (a • l 0 + (b • l 1 + z)) = 0 := hx2
      rw [map_add, map_add, hz0, add_zero, map_zsmul, map_zsmul, zsmul_mod_two, zsmul_mod_two _ b] at h3
      have ha : 0 ≤ a % 2 ∧ a % 2 < 2 := ⟨Int.emod_nonneg _ (by decide), Int.emod_lt_of_pos _ (by decide)⟩
      have hb : 0 ≤ b % 2 ∧ b % 2 < 2 := ⟨Int.emod_nonneg _ (by decide), Int.emod_lt_of_pos _ (by decide)⟩
      have := g2 ⟨(a % 2).toNat, by omega⟩ ⟨(b % 2).toNat, by omega⟩ (by
        simp only []
        rw [← natCast_zsmul, ← natCast_zsmul, Int.toNat_of_nonneg ha.1, Int.toNat_of_nonneg hb.1]
        exact h3)
      have ha0 : a % 2 = 0 := by have := congrArg Fin.val this.1; simp at this; omega
      have hb0 : b % 2 = 0 := by have := congrArg Fin.val this.2; simp at this; omega
      refine AddSubgroup.mem_sup.2 ⟨_, ⟨a / 2, rfl⟩, b • l 1 + z, AddSubgroup.mem_sup.2 ⟨_, ⟨b / 2, rfl⟩, z, hz, ?_⟩, ?_⟩
      · show (b / 2) • (l 1 + l 1) + z = b • l 1 + z
        rw [← two_smul ℤ, smul_smul]
        congr 2; omega
      · show (a / 2) • (l 0 + l 0) + _ = a • l 0 + _
        rw [← two_smul ℤ, smul_smul]
        congr 2; omega
  · rw [AddSubgroup.relIndex_ker]
    have : (span l n).map φ = ⊤ := by
      rw [eq_top_iff]
      intro x _
      obtain ⟨a, b, hab⟩ := g1 x
      refine ⟨(a : ℕ) • l 0 + (b : ℕ) • l 1, ?_, ?_⟩
      · exact add_mem (nsmul_mem (mem_span (by omega)) _) (nsmul_mem (mem_span hn) _)
      · rw [map_add, map_nsmul, map_nsmul, hab]
    rw [this, AddSubgroup.card_top, Nat.card_eq_fintype_card]
    decide

variable [DecidableEq A]

/-! ## The cyclic case -/

theorem cycLoop_spec {E : Env A} {p : ℤ} {N : ℕ} {φ : A →+ ZMod N} (h : CycOk E p N φ) (l : ℕ → A) (k : ℕ) :
    ∃ m l', cycLoop E p [N] N l k = some (m, l') ∧ m = addOrderOf (φ (l' 0)) ∧
      (∀ i, 1 ≤ i → i ≤ k → φ (l' i) = 0) ∧ ∀ n, k < n → span l' n = span l n := by
  induction k with
  | zero =>
    exact ⟨_, l, rfl, orderCG_spec h _, fun i h1 h2 => by omega, fun n _ => rfl⟩
  | succ k ih =>
    obtain ⟨m, l', e1, e2, e3, e4⟩ := ih
    obtain ⟨m', q0, q1, s1, s2, s3, ⟨a, b, c, d, s4, s5⟩, ⟨a', b', c', d', s6, s7⟩⟩ :=
      cycStep_spec h (p0 := l' 0) (p1 := l' (k + 1)) e2
    have hu0 : Function.update (Function.update l' 0 q0) (k + 1) q1 0 = q0 := by
      rw [Function.update_of_ne (by omega), Function.update_self]
    have hui : ∀ i, i ≠ 0 → i ≠ k + 1 → Function.update (Function.update l' 0 q0) (k + 1) q1 i = l' i := by
      intro i h1 h2
      rw [Function.update_of_ne h2, Function.update_of_ne h1]
    refine ⟨m', Function.update (Function.update l' 0 q0) (k + 1) q1, ?_, ?_, ?_, ?_⟩
    · simp only [cycLoop, e1, Option.bind_some, s1, Option.map_some]
    · rw [hu0]; exact s2
    · intro i h1 h2
      by_cases hi : i = k + 1
      · rw [hi, Function.update_self]; exact s3
      · rw [hui i (by omega) hi]; exact e3 i h1 (by omega)
    · intro n hn
      rw [← e4 n (by omega)]
      have m0 : l' 0 ∈ span l' n := mem_span (by omega)
      have m1 : l' (k + 1) ∈ span l' n := mem_span hn
      have m0' : q0 ∈ span (Function.update (Function.update l' 0 q0) (k + 1) q1) n := by
        have : Function.update (Function.update l' 0 q0) (k + 1) q1 0 ∈
          span (Function.update (Function.update l' 0 q0) (k + 1) q1) n := mem_span (by omega)
        rwa [hu0] at this
      have m1' : q1 ∈ span (Function.update (Function.update l' 0 q0) (k + 1) q1) n := by
        have : Function.update (Function.update l' 0 q0) (k + 1) q1 (k + 1) ∈
          span (Function.update (Function.update l' 0 q0) (k + 1) q1) n := mem_span hn
        rwa [Function.update_self] at this
      apply span_eq
      · intro i hi
        by_cases hi0 : i = 0
        · rw [hi0, hu0, s4]; exact add_mem (zsmul_mem m0 _) (zsmul_mem m1 _)
        · by_cases hi1 : i = k + 1
          · rw [hi1, Function.update_self, s5]; exact add_mem (zsmul_mem m0 _) (zsmul_mem m1 _)
          · rw [hui i hi0 hi1]; exact mem_span hi
      · intro i hi
        by_cases hi0 : i = 0
        · rw [hi0, s6]; exact add_mem (zsmul_mem m0' _) (zsmul_mem m1' _)
        · by_cases hi1 : i = k + 1
          · rw [hi1, s7]; exact add_mem (zsmul_mem m0' _) (zsmul_mem m1' _)
          · have : Function.update (Function.update l' 0 q0) (k + 1) q1 i ∈
              span (Function.update (Function.update l' 0 q0) (k + 1) q1) n := mem_span hi
            rwa [hui i hi0 hi1] at this

/-! ## The non-cyclic case -/

/-- the invariant of the loop -/
structure NcInv (φ : A →+ ZMod 2 × ZMod 2) (l : ℕ → A) (s : St A) (k : ℕ) : Prop where
  span : ∀ n, k ≤ n → span s.l n = span l n
  case : (s.logm = 0 ∧ ∀ i < k, φ (s.l i) = 0) ∨
    (s.logm = 1 ∧ 1 ≤ k ∧ φ (s.l 0) ≠ 0 ∧ ∀ i, 1 ≤ i → i < k → φ (s.l i) = 0) ∨
    (s.logm = 2 ∧ 2 ≤ k ∧ φ (s.l 0) ≠ 0 ∧ φ (s.l 1) ≠ 0 ∧ φ (s.l 0) ≠ φ (s.l 1) ∧ s.third = s.l 0 + s.l 1 ∧
      ∀ i, 2 ≤ i → i < k → φ (s.l i) = 0)

theorem span_sub {l : ℕ → A} {n k : ℕ} {x : A} (hk : k < n)
    (hx : x ∈ span l n) (hx' : x ∈ span (Function.update l k (l k - x)) n) :
    span (Function.update l k (l k - x)) n = span l n := by
  apply span_eq
  · intro i hi
    by_cases h : i = k
    · subst h; rw [Function.update_self]; exact sub_mem (mem_span hi) hx
    · rw [Function.update_of_ne h]; exact mem_span hi
  · intro i hi
    by_cases h : i = k
    · subst h
      have h1 : Function.update l i (l i - x) i ∈ span (Function.update l i (l i - x)) n := mem_span hi
      rw [Function.update_self] at h1
      have := add_mem h1 hx'
      rwa [sub_add_cancel] at this
    · have h1 : Function.update l k (l k - x) i ∈ span (Function.update l k (l k - x)) n := mem_span hi
      rwa [Function.update_of_ne h] at h1

theorem mem_upd {l : ℕ → A} {n k j : ℕ} {y : A} (hj : j < n) (hjk : j ≠ k) : l j ∈ span (Function.update l k y) n := by
  have h1 : Function.update l k y j ∈ span (Function.update l k y) n := mem_span hj
  rwa [Function.update_of_ne hjk] at h1

theorem span_swap {l : ℕ → A} {n k j : ℕ} (hk : k < n) (hj : j < n) (hjk : j ≠ k) :
    span (Function.update (Function.update l k (l j)) j (l k)) n = span l n := by
  set l' := Function.update (Function.update l k (l j)) j (l k) with hl
  have hlj : l' j = l k := by rw [hl, Function.update_self]
  have hlk : l' k = l j := by rw [hl, Function.update_of_ne hjk.symm, Function.update_self]
  have hli : ∀ i, i ≠ j → i ≠ k → l' i = l i := by
    intro i h1 h2; rw [hl, Function.update_of_ne h1, Function.update_of_ne h2]
  apply span_eq
  · intro i hi
    by_cases h1 : i = j
    · rw [h1, hlj]; exact mem_span hk
    · by_cases h2 : i = k
      · rw [h2, hlk]; exact mem_span hj
      · rw [hli i h1 h2]; exact mem_span hi
  · intro i hi
    by_cases h1 : i = j
    · rw [h1, ← hlk]; exact mem_span hk
    · by_cases h2 : i = k
      · rw [h2, ← hlj]; exact mem_span hj
      · rw [← hli i h1 h2]; exact mem_span hi

theorem third_case : ∀ c0 c1 x : ZMod 2 × ZMod 2, c0 ≠ 0 → c1 ≠ 0 → c0 ≠ c1 → x ≠ 0 → x ≠ c0 → x ≠ c1 → x = c0 + c1 := by
  decide

theorem ncStep_spec {E : Env A} {p : ℤ} {φ : A →+ ZMod 2 × ZMod 2} (hg : ∀ P, E.good p P = true ↔ φ P = 0)
    {l : ℕ → A} {s : St A} {k : ℕ} (h : NcInv φ l s k) : ∃ s', ncStep E p s k = some s' ∧ NcInv φ l s' (k + 1) := by
  have hsp := h.span
  unfold ncStep
  simp only []
  by_cases hgk : φ (s.l k) = 0
  · have ho : orderCG E p (s.l k) [2, 2] = 1 := by
      simp [orderCG, (hg _).2 hgk]
    rw [ho, if_neg (by decide), if_pos rfl]
    refine ⟨s, rfl, fun n hn => hsp n (by omega), ?_⟩
    rcases h.case with ⟨h1, h2⟩ | ⟨h1, h2, h3, h4⟩ | ⟨h1, h2, h3, h4, h5, h6, h7⟩
    · left
      refine ⟨h1, fun i hi => ?_⟩
      by_cases e : i = k
      · rw [e]; exact hgk
      · exact h2 i (by omega)
    · right; left
      refine ⟨h1, by omega, h3, fun i i1 hi => ?_⟩
      by_cases e : i = k
      · rw [e]; exact hgk
      · exact h4 i i1 (by omega)
    · right; right
      refine ⟨h1, by omega, h3, h4, h5, h6, fun i i1 hi => ?_⟩
      by_cases e : i = k
      · rw [e]; exact hgk
      · exact h7 i i1 (by omega)
  · have hb : E.good p (s.l k) = false := by
      rw [Bool.eq_false_iff]; intro hh; exact hgk ((hg _).1 hh)
    have ho : orderCG E p (s.l k) [2, 2] = 2 := by simp [orderCG, hb]
    rw [ho, if_neg (by decide), if_neg (by decide)]
    -- the effect of subtracting a point
    have sub : ∀ x, φ x = φ (s.l k) → φ (s.l k - x) = 0 := by
      intro x hx; rw [map_sub, hx, sub_self]
    rcases h.case with ⟨h1, h2⟩ | ⟨h1, h2, h3, h4⟩ | ⟨h1, h2, h3, h4, h5, h6, h7⟩
    · rw [if_pos h1]
      by_cases hk0 : 0 < k
      · rw [if_pos hk0]
        refine ⟨_, rfl, fun n hn => ?_, Or.inr (Or.inl ⟨rfl, by omega, ?_, ?_⟩)⟩
        · show span (Function.update (Function.update s.l k (s.l 0)) 0 (s.l k)) n = _
          rw [span_swap (by omega) (by omega) (by omega)]
          exact hsp n (by omega)
        · show φ (Function.update (Function.update s.l k (s.l 0)) 0 (s.l k) 0) ≠ 0
          rw [Function.update_self]; exact hgk
        · intro i i1 hi
          show φ (Function.update (Function.update s.l k (s.l 0)) 0 (s.l k) i) = 0
          rw [Function.update_of_ne (by omega)]
          by_cases e : i = k
          · rw [e, Function.update_self]; exact h2 0 hk0
          · rw [Function.update_of_ne e]; exact h2 i (by omega)
      · rw [if_neg hk0]
        have : k = 0 := by omega
        subst this
        exact ⟨_, rfl, fun n hn => hsp n (by omega), Or.inr (Or.inl ⟨rfl, by omega, hgk, fun i i1 hi => by omega⟩)⟩
    · rw [if_neg (by omega), if_pos h1]
      by_cases hsame : sameComp E p (s.l k) (s.l 0) = true
      · rw [if_pos hsame]
        rw [sameComp_iff hg] at hsame
        refine ⟨_, rfl, fun n hn => ?_, Or.inr (Or.inl ⟨h1, by omega, ?_, ?_⟩)⟩
        · rw [← hsp n (by omega)]
          exact span_sub (by omega) (mem_span (by omega)) (mem_upd (by omega) (by omega))
        · show φ (Function.update s.l k (s.l k - s.l 0) 0) ≠ 0
          rw [Function.update_of_ne (by omega)]; exact h3
        · intro i i1 hi
          show φ (Function.update s.l k (s.l k - s.l 0) i) = 0
          by_cases e : i = k
          · rw [e, Function.update_self]; exact sub _ hsame.symm
          · rw [Function.update_of_ne e]; exact h4 i i1 (by omega)
      · rw [if_neg hsame]
        rw [sameComp_iff hg] at hsame
        by_cases hk1 : 1 < k
        · simp only [if_pos hk1]
          refine ⟨_, rfl, fun n hn => ?_, Or.inr (Or.inr ⟨rfl, by omega, ?_, ?_, ?_, rfl, ?_⟩)⟩
          · show span (Function.update (Function.update s.l k (s.l 1)) 1 (s.l k)) n = _
            rw [span_swap (by omega) (by omega) (by omega)]
            exact hsp n (by omega)
          · show φ (Function.update (Function.update s.l k (s.l 1)) 1 (s.l k) 0) ≠ 0
            rw [Function.update_of_ne (by omega), Function.update_of_ne (by omega)]; exact h3
          · show φ (Function.update (Function.update s.l k (s.l 1)) 1 (s.l k) 1) ≠ 0
            rw [Function.update_self]; exact hgk
          · show φ (Function.update (Function.update s.l k (s.l 1)) 1 (s.l k) 0) ≠
              φ (Function.update (Function.update s.l k (s.l 1)) 1 (s.l k) 1)
            rw [Function.update_self, Function.update_of_ne (by omega), Function.update_of_ne (by omega)]
            exact fun hh => hsame hh.symm
          · intro i i1 hi
            show φ (Function.update (Function.update s.l k (s.l 1)) 1 (s.l k) i) = 0
            rw [Function.update_of_ne (by omega)]
            by_cases e : i = k
            · rw [e, Function.update_self]; exact h4 1 (by omega) hk1
            · rw [Function.update_of_ne e]; exact h4 i (by omega) (by omega)
        · have : k = 1 := by omega
          subst this
          simp only [if_neg hk1]
          exact ⟨_, rfl, fun n hn => hsp n (by omega), Or.inr (Or.inr ⟨rfl, by omega, h3, hgk, fun hh => hsame hh.symm, rfl,
            fun i i1 hi => by omega⟩)⟩
    · rw [if_neg (by omega), if_neg (by omega)]
      have fin : ∀ x, x ∈ span s.l (k + 1) → φ (s.l k) = φ x →
          (∀ n, k < n → x ∈ span s.l n ∧ x ∈ span (Function.update s.l k (s.l k - x)) n) →
          NcInv φ l { s with l := Function.update s.l k (s.l k - x) } (k + 1) := by
        intro x _ hx hmem
        refine ⟨fun n hn => ?_, Or.inr (Or.inr ⟨h1, by omega, ?_, ?_, ?_, ?_, ?_⟩)⟩
        · rw [← hsp n (by omega)]
          exact span_sub (by omega) (hmem n hn).1 (hmem n hn).2
        · show φ (Function.update s.l k (s.l k - x) 0) ≠ 0
          rw [Function.update_of_ne (by omega)]; exact h3
        · show φ (Function.update s.l k (s.l k - x) 1) ≠ 0
          rw [Function.update_of_ne (by omega)]; exact h4
        · show φ (Function.update s.l k (s.l k - x) 0) ≠ φ (Function.update s.l k (s.l k - x) 1)
          rw [Function.update_of_ne (by omega), Function.update_of_ne (by omega)]; exact h5
        · show s.third = Function.update s.l k (s.l k - x) 0 + Function.update s.l k (s.l k - x) 1
          rw [Function.update_of_ne (by omega), Function.update_of_ne (by omega)]; exact h6
        · intro i i1 hi
          show φ (Function.update s.l k (s.l k - x) i) = 0
          by_cases e : i = k
          · rw [e, Function.update_self]; exact sub _ hx.symm
          · rw [Function.update_of_ne e]; exact h7 i i1 (by omega)
      by_cases c0 : sameComp E p (s.l k) (s.l 0) = true
      · rw [if_pos c0]
        rw [sameComp_iff hg] at c0
        exact ⟨_, rfl, fin _ (mem_span (by omega)) c0 (fun n hn => ⟨mem_span (by omega), mem_upd (by omega) (by omega)⟩)⟩
      · rw [if_neg c0]
        by_cases c1 : sameComp E p (s.l k) (s.l 1) = true
        · rw [if_pos c1]
          rw [sameComp_iff hg] at c1
          exact ⟨_, rfl, fin _ (mem_span (by omega)) c1 (fun n hn => ⟨mem_span (by omega), mem_upd (by omega) (by omega)⟩)⟩
        · rw [if_neg c1]
          have c2 : φ (s.l k) = φ s.third := by
            rw [h6, map_add]
            rw [sameComp_iff hg] at c0 c1
            exact third_case _ _ _ h3 h4 h5 hgk c0 c1
          rw [if_pos ((sameComp_iff hg _ _).2 c2)]
          refine ⟨_, rfl, fin _ ?_ c2 (fun n hn => ⟨?_, ?_⟩)⟩
          · rw [h6]; exact add_mem (mem_span (by omega)) (mem_span (by omega))
          · rw [h6]; exact add_mem (mem_span (by omega)) (mem_span (by omega))
          · have := add_mem (mem_upd (l := s.l) (n := n) (k := k) (j := 0) (y := s.l k - s.third) (by omega) (by omega))
              (mem_upd (l := s.l) (n := n) (k := k) (j := 1) (y := s.l k - s.third) (by omega) (by omega))
            rwa [← h6] at this

theorem ncLoop_spec {E : Env A} {p : ℤ} {φ : A →+ ZMod 2 × ZMod 2} (hg : ∀ P, E.good p P = true ↔ φ P = 0)
    (l : ℕ → A) (k : ℕ) : ∃ s, ncLoop E p l k = some s ∧ NcInv φ l s k := by
  induction k with
  | zero => exact ⟨_, rfl, fun n _ => rfl, Or.inl ⟨rfl, fun i hi => by omega⟩⟩
  | succ k ih =>
    obtain ⟨s, h1, h2⟩ := ih
    obtain ⟨s', h3, h4⟩ := ncStep_spec hg h2
    exact ⟨s', by simp only [ncLoop, h1, Option.bind_some, h3], h4⟩

/-- **C109** (`gr1prime`): the function terminates without error; the new points generate the subgroup of the points with good reduction
at `p` of the group generated by the old points, and the number returned is the index of this subgroup. -/
theorem C109_gr1prime {E : Env A} {p : ℤ} (h : PlaceOk E p) {K : AddSubgroup A} (hK : IsGood E p K) (l : ℕ → A) (n : ℕ) :
    ∃ m l', gr1prime E l n p = some (m, l') ∧ span l' n = span l n ⊓ K ∧ m = K.relIndex (span l n) ∧ 0 < m := by
  unfold gr1prime
  by_cases hn : n = 0
  · rw [if_pos hn]
    subst hn
    have hb : span l 0 = ⊥ := by
      unfold span
      rw [AddSubgroup.closure_eq_bot_iff]
      rintro x ⟨i, hi, _⟩; omega
    exact ⟨1, l, rfl, by rw [hb, bot_inf_eq], by rw [hb, AddSubgroup.relIndex_bot_right], one_pos⟩
  rw [if_neg hn]
  simp only []
  rcases h with ⟨N, φ, hc, hok⟩ | ⟨hc, φ, hg⟩
  · have hKer : K = φ.ker := by
      ext x; rw [hK x, hok.good x]; rfl
    rw [isCG_iff.1 hc]
    rw [if_neg (show ¬ 1 < [N].length by simp)]
    by_cases h1 : N = 1
    · rw [if_pos (show [N].headD 0 = 1 from h1)]
      subst h1
      have hall : K = ⊤ := by
        rw [hKer, eq_top_iff]; intro x _; exact Subsingleton.elim _ _
      exact ⟨1, l, rfl, by rw [hall, inf_top_eq], by rw [hall, AddSubgroup.relIndex_top_left], one_pos⟩
    · rw [if_neg (show ¬ [N].headD 0 = 1 from h1)]
      obtain ⟨m, l', e1, e2, e3, e4⟩ := cycLoop_spec hok l (n - 1)
      have e1' : cycLoop E p [N] ([N].headD 0) l (n - 1) = some (m, l') := e1
      rw [e1', Option.map_some]
      have hf := final_one (l := l') (n := n) (by omega) e2 (fun i i1 hi => e3 i i1 (by omega))
      have hs := e4 n (by omega)
      have : NeZero N := ⟨hok.pos.ne'⟩
      refine ⟨m, _, rfl, ?_, ?_, ?_⟩
      · rw [hf.1, hs, hKer]
      · rw [← hs, hKer, hf.2]
      · rw [e2]; exact addOrderOf_pos _
  · have hKer : K = φ.ker := by
      ext x; rw [hK x, hg x]; rfl
    rw [isCG_iff.1 hc, if_pos (show 1 < [2, 2].length by simp)]
    unfold gr1nc
    obtain ⟨s, e1, e2⟩ := ncLoop_spec hg l n
    have hs := e2.span n (le_refl n)
    rw [e1, Option.map_some]
    rcases e2.case with ⟨h1, h2⟩ | ⟨h1, h2, h3, h4⟩ | ⟨h1, h2, h3, h4, h5, h6, h7⟩
    · refine ⟨1, s.l, ?_, ?_, ?_, one_pos⟩
      · simp [h1]
      · rw [hs]
        symm
        rw [inf_eq_left, ← hs, hKer]
        exact span_le (fun i hi => h2 i hi)
      · symm
        rw [AddSubgroup.relIndex_eq_one, ← hs, hKer]
        exact span_le (fun i hi => h2 i hi)
    · have h2' : φ (s.l 0) + φ (s.l 0) = 0 := two_kill _
      have ho : addOrderOf (φ (s.l 0)) = 2 := by
        have hd : addOrderOf (φ (s.l 0)) ∣ 2 := by
          rw [addOrderOf_dvd_iff_nsmul_eq_zero, two_nsmul]; exact h2'
        rcases (Nat.dvd_prime Nat.prime_two).1 hd with h | h
        · exact absurd (AddMonoid.addOrderOf_eq_one_iff.1 h) h3
        · exact h
      have hf := final_one (φ := φ) (l := s.l) (n := n) (m := 2) (by omega) ho.symm h4
      refine ⟨2, Function.update s.l 0 (s.l 0 + s.l 0), ?_, ?_, ?_, two_pos⟩
      · simp [h1]
      · rw [hKer, ← hs, ← hf.1]
        congr 2
        rw [natCast_zsmul, two_nsmul]
      · rw [hKer, ← hs, hf.2]
    · have hf := final_two (φ := φ) (l := s.l) (n := n) (by omega) h3 h4 h5 h7
      refine ⟨4, Function.update (Function.update s.l 0 (s.l 0 + s.l 0)) 1 (s.l 1 + s.l 1), ?_, ?_, ?_, by decide⟩
      · simp only [h1]
        norm_num
      · rw [hKer, ← hs, ← hf.1]
      · rw [hKer, ← hs, hf.2]

theorem fold_spec {E : Env A} {K : ℤ → AddSubgroup A} (n : ℕ) (pl : List ℤ) (h : ∀ p ∈ pl, PlaceOk E p)
    (hK : ∀ p ∈ pl, IsGood E p (K p)) : ∀ (m0 : ℕ) (l : ℕ → A), 0 < m0 →
    ∃ m l', pl.foldl (fun s p => s.bind (fun s => (gr1prime E s.2 n p).map (fun r => (s.1 * r.1, r.2)))) (some (m0, l)) =
        some (m0 * m, l') ∧ span l' n = span l n ⊓ (⨅ p ∈ pl, K p) ∧ m = (⨅ p ∈ pl, K p).relIndex (span l n) ∧ 0 < m := by
  induction pl with
  | nil =>
    intro m0 l _
    refine ⟨1, l, by simp, by simp, ?_, one_pos⟩
    simp
  | cons p pl ih =>
    intro m0 l hm0
    obtain ⟨m1, l1, a1, a2, a3, a4⟩ := C109_gr1prime (h p (by simp)) (hK p (by simp)) l n
    obtain ⟨m2, l2, b1, b2, b3, b4⟩ := ih (fun q hq => h q (by simp [hq])) (fun q hq => hK q (by simp [hq])) (m0 * m1) l1
      (Nat.mul_pos hm0 a4)
    have hinf : (⨅ q ∈ p :: pl, K q) = K p ⊓ ⨅ q ∈ pl, K q := by
      ext x
      simp [AddSubgroup.mem_iInf]
    refine ⟨m1 * m2, l2, ?_, ?_, ?_, Nat.mul_pos a4 b4⟩
    · rw [List.foldl_cons, Option.bind_some]
      simp only []
      rw [a1, Option.map_some]
      simp only []
      rw [b1, mul_assoc]
    · rw [b2, a2, hinf, inf_assoc]
    · rw [b3, a3, a2, hinf, inf_comm (K p)]
      rw [inf_comm (span l n) (K p), mul_comm, AddSubgroup.relIndex_inf_mul_relIndex]

/-- **C109** (`grprimes`): the new points generate the subgroup of points with good reduction at all places of the list and
the number returned is its index. -/
theorem C109_grprimes {E : Env A} {K : ℤ → AddSubgroup A} (l : ℕ → A) (n : ℕ) (pl : List ℤ) (h : ∀ p ∈ pl, PlaceOk E p)
    (hK : ∀ p ∈ pl, IsGood E p (K p)) :
    ∃ m l', grprimes E l n pl = some (m, l') ∧ span l' n = span l n ⊓ (⨅ p ∈ pl, K p) ∧
      m = (⨅ p ∈ pl, K p).relIndex (span l n) ∧ 0 < m := by
  obtain ⟨m, l', h1, h2⟩ := fold_spec n pl h hK 1 l one_pos
  rw [one_mul] at h1
  exact ⟨m, l', h1, h2⟩

/-- **C109** (`egr_subgroup`): with `real_too` not set the subgroup of points with good reduction at all bad primes; with it also
in the connected component at the real place; the number returned is the index. -/
theorem C109_egr_subgroup {E : Env A} {K : ℤ → AddSubgroup A} (bad : List ℤ) (l : ℕ → A) (n : ℕ) (real : Bool)
    (h : ∀ p ∈ bad, PlaceOk E p) (hK : ∀ p ∈ bad, IsGood E p (K p)) (h0 : real = true → PlaceOk E 0)
    (hK0 : real = true → IsGood E 0 (K 0)) (hconn : E.conncomp = 1 ∨ E.conncomp = 2) :
    ∃ m l', egrSubgroup E bad l n real = some (m, l') ∧
      (∀ P, P ∈ span l' n ↔ P ∈ span l n ∧ (∀ p ∈ bad, E.good p P = true) ∧ (real = true → E.good 0 P = true)) ∧
      m = (span l' n).relIndex (span l n) := by
  have conn : real = true → E.conncomp ≠ 2 → ∀ P, E.good 0 P = true := by
    intro hr hc P
    rcases h0 hr with ⟨N, φ, hcg, hok⟩ | ⟨hcg, _⟩
    · have hN : E.conncomp = N := by
        simpa [componentGroup] using isCG_iff.1 hcg
      have h1 : N = 1 := by omega
      subst h1
      exact (hok.good P).2 (Subsingleton.elim _ _)
    · simp [isCG_iff, componentGroup] at hcg
  unfold egrSubgroup
  by_cases hn : n = 0
  · rw [if_pos hn]
    subst hn
    have hb : span l 0 = ⊥ := by
      unfold span
      rw [AddSubgroup.closure_eq_bot_iff]
      rintro x ⟨i, hi, _⟩; omega
    refine ⟨1, l, rfl, fun P => ?_, by rw [AddSubgroup.relIndex_self]⟩
    refine ⟨fun hP => ⟨hP, ?_, ?_⟩, fun hP => hP.1⟩
    · intro p hp
      rw [hb, AddSubgroup.mem_bot] at hP
      rw [hP, ← hK p hp]; exact zero_mem _
    · intro hr
      rw [hb, AddSubgroup.mem_bot] at hP
      rw [hP, ← hK0 hr]; exact zero_mem _
  rw [if_neg hn]
  by_cases hc : (real && E.conncomp == 2) = true
  · rw [if_pos hc]
    simp only [Bool.and_eq_true, beq_iff_eq] at hc
    have hb : ∀ p ∈ bad ++ [0], PlaceOk E p := by
      intro p hp
      rcases List.mem_append.1 hp with h1 | h1
      · exact h p h1
      · rw [List.mem_singleton.1 h1]; exact h0 hc.1
    have hbK : ∀ p ∈ bad ++ [0], IsGood E p (K p) := by
      intro p hp
      rcases List.mem_append.1 hp with h1 | h1
      · exact hK p h1
      · rw [List.mem_singleton.1 h1]; exact hK0 hc.1
    obtain ⟨m, l', e1, e2, e3, _⟩ := C109_grprimes l n (bad ++ [0]) hb hbK
    refine ⟨m, l', e1, fun P => ?_, ?_⟩
    · rw [e2, AddSubgroup.mem_inf, AddSubgroup.mem_iInf]
      refine and_congr_right (fun _ => ?_)
      simp only [AddSubgroup.mem_iInf]
      constructor
      · intro hh
        exact ⟨fun p hp => (hK p hp P).1 (hh p (List.mem_append_left _ hp)),
          fun _ => (hK0 hc.1 P).1 (hh 0 (by simp))⟩
      · rintro ⟨g1, g2⟩ p hp
        rcases List.mem_append.1 hp with h1 | h1
        · exact (hK p h1 P).2 (g1 p h1)
        · rw [List.mem_singleton.1 h1]; exact (hK0 hc.1 P).2 (g2 hc.1)
    · rw [e3, e2, AddSubgroup.inf_relIndex_left]
  · rw [if_neg hc]
    obtain ⟨m, l', e1, e2, e3, _⟩ := C109_grprimes l n bad h hK
    refine ⟨m, l', e1, fun P => ?_, ?_⟩
    · rw [e2, AddSubgroup.mem_inf, AddSubgroup.mem_iInf]
      refine and_congr_right (fun _ => ?_)
      simp only [AddSubgroup.mem_iInf]
      constructor
      · intro hh
        refine ⟨fun p hp => (hK p hp P).1 (hh p hp), fun hr => conn hr ?_ P⟩
        intro h2
        exact hc (by simp [hr, h2])
      · rintro ⟨g1, _⟩ p hp
        exact (hK p hp P).2 (g1 p hp)
    · rw [e3, e2, AddSubgroup.inf_relIndex_left]

end Eclib.Egr
