import Verif.Egr.Model
import Verif.Arith.Lemmas
import Mathlib.Data.ZMod.Basic
import Mathlib.Data.ZMod.Units
import Mathlib.GroupTheory.OrderOfElement
import Mathlib.GroupTheory.Index
import Mathlib.Tactic.LinearCombination

/-!
# The cyclic case of `gr1prime`: one step
-/

namespace Eclib.Egr

open Eclib.Arith

variable {A : Type} [AddCommGroup A] [DecidableEq A]

/-- the assumption on a place with cyclic component group of order `N`: good reduction is the kernel of a map to `ℤ/N`, and
`ImageInComponentGroup_Im` computes this map up to an automorphism of `ℤ/N` -/
structure CycOk (E : Env A) (p : ℤ) (N : ℕ) (φ : A →+ ZMod N) : Prop where
  pos : 0 < N
  good : ∀ P, E.good p P = true ↔ φ P = 0
  image : 5 ≤ N → ∃ u : (ZMod N)ˣ, ∀ P, (E.imageIm p P N : ZMod N) = u * φ P

theorem order_int {N : ℕ} (hN : 0 < N) (i : ℤ) : addOrderOf (i : ZMod N) = N / Nat.gcd N i.natAbs := by
  rw [← ZMod.addOrderOf_coe i.natAbs hN.ne']
  rcases Int.natAbs_eq i with h | h
  · conv_lhs => rw [h]
    rw [Int.cast_natCast]
  · conv_lhs => rw [h]
    rw [Int.cast_neg, Int.cast_natCast, addOrderOf_neg]

theorem order_unit {N : ℕ} (u : (ZMod N)ˣ) (x : ZMod N) : addOrderOf ((u : ZMod N) * x) = addOrderOf x := by
  have := addOrderOf_injective (AddMonoidHom.mulLeft (u : ZMod N)) (fun a b h => by
    simpa using h) x
  simpa using this

theorem orderCG_spec {E : Env A} {p : ℤ} {N : ℕ} {φ : A →+ ZMod N} (h : CycOk E p N φ) (P : A) :
    orderCG E p P [N] = addOrderOf (φ P) := by
  have hN := h.pos
  have e1 : orderCG E p P [N] = N / Nat.gcd N (imageCG E p P [N]).natAbs := rfl
  rw [e1, ← order_int hN]
  by_cases h5 : 5 ≤ N
  · obtain ⟨u, hu⟩ := h.image h5
    have : imageCG E p P [N] = E.imageIm p P N := by
      have a1 : N ≠ 1 := by omega
      have a2 : ¬ (N = 2 ∨ N = 3) := by omega
      have a3 : N ≠ 4 := by omega
      simp [imageCG, a1, a2, a3]
    rw [this, hu, order_unit]
  · have hg := h.good P
    have hg2 := h.good (P + P)
    rw [map_add] at hg2
    have h4 : N = 1 ∨ N = 2 ∨ N = 3 ∨ N = 4 := by omega
    unfold imageCG
    simp only [List.length_cons, List.length_nil, List.headD_cons]
    generalize φ P = x at *
    rcases h4 with h4 | h4 | h4 | h4
    · subst h4
      rw [Subsingleton.elim x 0]
      norm_num
    · subst h4
      norm_num
      have : ∀ y : ZMod 2, y ≠ 0 → y = 1 := by decide
      by_cases hx : x = 0
      · rw [if_pos (hg.2 hx), hx]; try norm_num
      · rw [if_neg (fun hh => hx (hg.1 hh)), this x hx]; try norm_num
    · subst h4
      norm_num
      have : ∀ y : ZMod 3, y ≠ 0 → y = 1 ∨ y = -1 := by decide
      by_cases hx : x = 0
      · rw [if_pos (hg.2 hx), hx]; try norm_num
      · rw [if_neg (fun hh => hx (hg.1 hh))]
        rcases this x hx with h1 | h1
        · rw [h1]; try norm_num
        · rw [h1, addOrderOf_neg]; try norm_num
    · subst h4
      norm_num
      have : ∀ y : ZMod 4, y ≠ 0 → y + y ≠ 0 → y = 1 ∨ y = -1 := by decide
      have t2 : ∀ y : ZMod 4, y ≠ 0 → y + y = 0 → y = 2 := by decide
      by_cases hx : x = 0
      · rw [if_pos (hg.2 hx), hx]; try norm_num
      · rw [if_neg (fun hh => hx (hg.1 hh))]
        by_cases hx2 : x + x = 0
        · rw [if_pos (hg2.2 hx2), t2 x hx hx2]; try norm_num
        · rw [if_neg (fun hh => hx2 (hg2.1 hh))]
          rcases this x hx hx2 with h1 | h1
          · rw [h1]; try norm_num
          · rw [h1, addOrderOf_neg]; try norm_num

/-- in `ℤ/N` an element whose order divides that of `y` is a multiple of `y` -/
theorem mem_of_order_dvd {N : ℕ} (hN : 0 < N) {x y : ZMod N} (h : addOrderOf x ∣ addOrderOf y) :
    ∃ c : ℕ, c < addOrderOf y ∧ x = c • y := by
  have : NeZero N := ⟨hN.ne'⟩
  have hy0 : 0 < addOrderOf y := addOrderOf_pos y
  suffices hs : ∃ k : ℤ, x = k • y by
    obtain ⟨k, hk⟩ := hs
    have hz : (addOrderOf y : ℤ) ≠ 0 := by exact_mod_cast hy0.ne'
    refine ⟨(k % addOrderOf y).toNat, ?_, ?_⟩
    · have := Int.emod_lt_of_pos k (show (0 : ℤ) < addOrderOf y by exact_mod_cast hy0)
      have := Int.emod_nonneg k hz
      omega
    · rw [hk, ← natCast_zsmul, Int.toNat_of_nonneg (Int.emod_nonneg k hz), mod_addOrderOf_zsmul]
  have hx : addOrderOf x = N / Nat.gcd N x.val := by
    conv_lhs => rw [← ZMod.natCast_zmod_val x]
    exact ZMod.addOrderOf_coe _ hN.ne'
  have hy : addOrderOf y = N / Nat.gcd N y.val := by
    conv_lhs => rw [← ZMod.natCast_zmod_val y]
    exact ZMod.addOrderOf_coe _ hN.ne'
  rw [hx, hy] at h
  have hd : Nat.gcd N y.val ∣ Nat.gcd N x.val := by
    obtain ⟨c, hc⟩ := h
    obtain ⟨a, ha⟩ := Nat.gcd_dvd_left N x.val
    obtain ⟨b, hb⟩ := Nat.gcd_dvd_left N y.val
    have g1 : 0 < Nat.gcd N x.val := Nat.gcd_pos_of_pos_left _ hN
    have g2 : 0 < Nat.gcd N y.val := Nat.gcd_pos_of_pos_left _ hN
    have e1 : N / Nat.gcd N x.val = a := Nat.div_eq_of_eq_mul_right g1 ha
    have e2 : N / Nat.gcd N y.val = b := Nat.div_eq_of_eq_mul_right g2 hb
    rw [e1, e2] at hc
    have ha0 : 0 < a := by rcases Nat.eq_zero_or_pos a with h0 | h0; · (rw [h0] at ha; omega)
                           · exact h0
    refine ⟨c, ?_⟩
    have : Nat.gcd N x.val * a = Nat.gcd N y.val * c * a := by
      rw [← ha, mul_assoc, mul_comm c a, ← hc, ← hb]
    exact Nat.eq_of_mul_eq_mul_right ha0 this
  have hdx : (Nat.gcd N y.val : ℤ) ∣ (x.val : ℤ) := by exact_mod_cast hd.trans (Nat.gcd_dvd_right _ _)
  obtain ⟨k, hk⟩ := hdx
  have hb := Nat.gcd_eq_gcd_ab N y.val
  refine ⟨k * Nat.gcdB N y.val, ?_⟩
  have hxc : x = ((x.val : ℤ) : ZMod N) := by rw [Int.cast_natCast, ZMod.natCast_zmod_val]
  have hyc : y = ((y.val : ℤ) : ZMod N) := by rw [Int.cast_natCast, ZMod.natCast_zmod_val]
  generalize Nat.gcdB N y.val = B at *
  generalize Nat.gcdA N y.val = A' at *
  rw [hxc, hk, hb, zsmul_eq_mul]
  push_cast
  rw [ZMod.natCast_self, ZMod.natCast_zmod_val]
  ring

theorem subLoop_spec {E : Env A} {p : ℤ} {P0 : A} (fuel : ℕ) : ∀ P1, (∃ i ≤ fuel, E.good p (P1 - i • P0) = true) →
    ∃ i : ℕ, subLoop E p P0 fuel P1 = some (P1 - i • P0) ∧ E.good p (P1 - i • P0) = true := by
  induction fuel with
  | zero =>
    rintro P1 ⟨i, hi, hg⟩
    have : i = 0 := by omega
    subst this
    refine ⟨0, ?_, hg⟩
    rw [zero_nsmul, sub_zero] at hg ⊢
    simp [subLoop, hg]
  | succ f ih =>
    rintro P1 ⟨i, hi, hg⟩
    by_cases h0 : E.good p P1 = true
    · refine ⟨0, ?_, by simpa using h0⟩
      simp [subLoop, h0]
    · have hi0 : i ≠ 0 := by
        rintro rfl
        rw [zero_nsmul, sub_zero] at hg
        exact h0 hg
      obtain ⟨i', rfl⟩ := Nat.exists_eq_succ_of_ne_zero hi0
      obtain ⟨j, j1, j2⟩ := ih (P1 - P0) ⟨i', by omega, by
        rw [show P1 - P0 - i' • P0 = P1 - (i' + 1) • P0 by rw [succ_nsmul]; abel]; exact hg⟩
      have e : P1 - P0 - j • P0 = P1 - (j + 1) • P0 := by rw [succ_nsmul]; abel
      rw [e] at j1 j2
      refine ⟨j + 1, ?_, j2⟩
      rw [← j1]
      simp [subLoop, h0]

theorem findU_spec {E : Env A} {p : ℤ} {N : ℕ} {Q0 Q1 : A} (fuel : ℕ) : ∀ u Q, Q = u • Q0 →
    (∃ v, u ≤ v ∧ v < u + fuel ∧ Nat.gcd v N ≤ 1 ∧ sameComp E p (v • Q0) Q1 = true) →
    ∃ v, findU E p N Q0 Q1 fuel u Q = some v ∧ Nat.gcd v N ≤ 1 ∧ sameComp E p (v • Q0) Q1 = true := by
  induction fuel with
  | zero => rintro u Q _ ⟨v, h1, h2, _⟩; omega
  | succ f ih =>
    rintro u Q hQ ⟨v, h1, h2, h3, h4⟩
    unfold findU
    by_cases hc : 1 < Nat.gcd u N ∨ sameComp E p Q Q1 = false
    · rw [if_pos hc]
      refine ih (u + 1) (Q + Q0) (by rw [hQ, succ_nsmul]) ⟨v, ?_, by omega, h3, h4⟩
      rcases h1.eq_or_lt with h | h
      · subst h
        rw [← hQ] at h4
        rcases hc with hc | hc
        · omega
        · rw [h4] at hc; exact absurd hc (by decide)
      · exact h
    · rw [if_neg hc]
      push Not at hc
      refine ⟨u, rfl, hc.1, ?_⟩
      rw [← hQ]
      simpa using hc.2

theorem sameComp_iff {E : Env A} {p : ℤ} {C : Type} [AddCommGroup C] {φ : A →+ C} (hg : ∀ P, E.good p P = true ↔ φ P = 0)
    (P Q : A) : sameComp E p P Q = true ↔ φ P = φ Q := by
  unfold sameComp
  by_cases h : P = Q
  · rw [if_pos h, h]; simp
  · rw [if_neg h, hg, map_sub, sub_eq_zero]

/-- one step of the loop in the cyclic case -/
theorem cycStep_spec {E : Env A} {p : ℤ} {N : ℕ} {φ : A →+ ZMod N} (h : CycOk E p N φ) {m : ℕ} {p0 p1 : A}
    (hm : m = addOrderOf (φ p0)) :
    ∃ m' q0 q1, cycStep E p [N] N m p0 p1 = some (m', q0, q1) ∧ m' = addOrderOf (φ q0) ∧ φ q1 = 0 ∧
      (∃ a b c d : ℤ, q0 = a • p0 + b • p1 ∧ q1 = c • p0 + d • p1) ∧
      (∃ a b c d : ℤ, p0 = a • q0 + b • q1 ∧ p1 = c • q0 + d • q1) := by
  have hN := h.pos
  have : NeZero N := ⟨hN.ne'⟩
  have hk : orderCG E p p1 [N] = addOrderOf (φ p1) := orderCG_spec h p1
  by_cases h1 : orderCG E p p1 [N] = 1
  · refine ⟨m, p0, p1, ?_, hm, ?_, ⟨1, 0, 0, 1, by simp, by simp⟩, ⟨1, 0, 0, 1, by simp, by simp⟩⟩
    · unfold cycStep
      simp only []
      rw [if_pos h1]
    · rw [h1] at hk
      exact AddMonoid.addOrderOf_eq_one_iff.1 hk.symm
  -- after the exchange
  have main : ∀ P0 P1 : A, ∀ n0 n1 : ℕ, n0 = addOrderOf (φ P0) → n1 = addOrderOf (φ P1) →
      ∃ m' q0 q1, (if n0 % n1 = 0 then (subLoop E p P0 N P1).map (fun P1' => (n0, P0, P1'))
        else
          let g := Nat.gcd n0 n1
          let Q0 := ((n0 / g : ℕ) : ℤ) • P0
          let Q1 := ((n1 / g : ℕ) : ℤ) • P1
          (findU E p N Q0 Q1 N 1 Q0).map (fun (u : ℕ) =>
            let r := bezout ((u : ℤ) * n0) n1
            let g := r.1
            let a := r.2.1
            let b := r.2.2
            (((n0 * n1 : ℕ) : ℤ).tdiv g |>.toNat, b • P0 + a • P1,
              ((-(u : ℤ) * n0).tdiv g) • P0 + ((n1 : ℤ).tdiv g) • P1))) = some (m', q0, q1) ∧
        m' = addOrderOf (φ q0) ∧ φ q1 = 0 ∧
        (∃ a b c d : ℤ, q0 = a • P0 + b • P1 ∧ q1 = c • P0 + d • P1) ∧
        (∃ a b c d : ℤ, P0 = a • q0 + b • q1 ∧ P1 = c • q0 + d • q1) := by
    intro P0 P1 n0 n1 hn0 hn1
    have n0pos : 0 < n0 := hn0 ▸ addOrderOf_pos _
    have n1pos : 0 < n1 := hn1 ▸ addOrderOf_pos _
    have hcard : ∀ x : ZMod N, addOrderOf x ∣ N := by
      intro x
      have := addOrderOf_dvd_natCard x
      rwa [Nat.card_zmod] at this
    by_cases hdiv : n0 % n1 = 0
    · rw [if_pos hdiv]
      obtain ⟨c, hc1, hc2⟩ := mem_of_order_dvd hN (x := φ P1) (y := φ P0)
        (by rw [← hn0, ← hn1]; exact Nat.dvd_of_mod_eq_zero hdiv)
      have hcN : c ≤ N := hc1.le.trans (Nat.le_of_dvd hN (hcard _))
      obtain ⟨i, i1, i2⟩ := subLoop_spec (P0 := P0) N P1 ⟨c, hcN, by
        rw [h.good, map_sub, map_nsmul, hc2, sub_self]⟩
      refine ⟨n0, P0, P1 - i • P0, by rw [i1]; rfl, hn0, (h.good _).1 i2, ⟨1, 0, -i, 1, by simp, ?_⟩,
        ⟨1, 0, i, 1, by simp, ?_⟩⟩
      · rw [neg_smul, natCast_zsmul, one_smul]; abel
      · rw [natCast_zsmul, one_smul]; abel
    · rw [if_neg hdiv]
      have gpos : 0 < Nat.gcd n0 n1 := Nat.gcd_pos_of_pos_left _ n0pos
      obtain ⟨s, hs⟩ := Nat.gcd_dvd_left n0 n1
      obtain ⟨t, ht⟩ := Nat.gcd_dvd_right n0 n1
      set g := Nat.gcd n0 n1 with hgdef
      have es : n0 / g = s := Nat.div_eq_of_eq_mul_right gpos hs
      have et : n1 / g = t := Nat.div_eq_of_eq_mul_right gpos ht
      have hN1 : n1 ∣ N := hn1 ▸ hcard _
      have hgN : g ∣ N := (Nat.gcd_dvd_right n0 n1).trans hN1
      simp only [es, et]
      have spos : 0 < s := by
        rcases Nat.eq_zero_or_pos s with h0 | h0
        · rw [h0] at hs; omega
        · exact h0
      have tpos : 0 < t := by
        rcases Nat.eq_zero_or_pos t with h0 | h0
        · rw [h0] at ht; omega
        · exact h0
      -- the orders of Q0 and Q1
      have o0 : addOrderOf (s • φ P0) = g := by
        rw [addOrderOf_nsmul_of_dvd spos.ne' (by rw [← hn0]; exact ⟨g, by rw [mul_comm]; exact hs⟩), ← hn0]
        exact Nat.div_eq_of_eq_mul_left spos hs
      have o1 : addOrderOf (t • φ P1) = g := by
        rw [addOrderOf_nsmul_of_dvd tpos.ne' (by rw [← hn1]; exact ⟨g, by rw [mul_comm]; exact ht⟩), ← hn1]
        exact Nat.div_eq_of_eq_mul_left tpos ht
      obtain ⟨c, hc1, hc2⟩ := mem_of_order_dvd hN (x := t • φ P1) (y := s • φ P0) (by rw [o0, o1])
      have hcop : Nat.Coprime c g := by
        have e := addOrderOf_nsmul' (s • φ P0) (n := c)
        by_cases hc0 : c = 0
        · have hz : addOrderOf (t • φ P1) = 1 := by rw [hc2, hc0, zero_nsmul, addOrderOf_zero]
          rw [o1] at hz
          rw [hz]; exact Nat.coprime_one_right c
        · have e := e hc0
          rw [← hc2, o0, o1] at e
          have hgg : Nat.gcd g c ∣ g := Nat.gcd_dvd_left _ _
          have hgp : 0 < Nat.gcd g c := Nat.gcd_pos_of_pos_left _ gpos
          have : g * Nat.gcd g c = g * 1 := by
            rw [mul_one]
            calc g * Nat.gcd g c = g / Nat.gcd g c * Nat.gcd g c := by rw [← e]
              _ = g := Nat.div_mul_cancel hgg
          have := Nat.eq_of_mul_eq_mul_left gpos this
          rw [Nat.coprime_comm]
          exact this
      -- the unit
      obtain ⟨u, hu⟩ := ZMod.unitsMap_surjective hgN (ZMod.unitOfCoprime c hcop)
      have hu' : ((u : ZMod N).val : ZMod g) = (c : ZMod g) := by
        have := congrArg Units.val hu
        rw [ZMod.unitsMap_val, ZMod.coe_unitOfCoprime] at this
        rw [← this, ZMod.natCast_val]
      have hcast : ((u : ZMod N).val) • (s • φ P0) = c • (s • φ P0) := by
        rw [nsmul_eq_nsmul_iff_modEq, o0]
        exact (ZMod.natCast_eq_natCast_iff _ _ _).1 hu'
      have hQ0 : φ ((s : ℤ) • P0) = s • φ P0 := by rw [natCast_zsmul, map_nsmul]
      have hQ1 : φ ((t : ℤ) • P1) = t • φ P1 := by rw [natCast_zsmul, map_nsmul]
      have hN1' : 1 < N := by
        by_contra hle
        have h1N : N = 1 := by omega
        have hz : n1 = 1 := by
          have := hN1
          rw [h1N] at this
          exact Nat.dvd_one.1 this
        rw [hz] at hdiv
        exact hdiv (Nat.mod_one _)
      have hupos : 1 ≤ (u : ZMod N).val := by
        by_contra hlt
        have : (u : ZMod N).val = 0 := by omega
        have h2 := ZMod.val_coe_unit_coprime u
        rw [this, Nat.coprime_zero_left] at h2
        omega
      obtain ⟨v, v1, v2, v3⟩ := findU_spec (E := E) (p := p) (N := N) (Q0 := (s : ℤ) • P0) (Q1 := (t : ℤ) • P1) N 1
        ((s : ℤ) • P0) (one_nsmul _).symm ⟨(u : ZMod N).val, hupos, by
          have := ZMod.val_lt (u : ZMod N); omega, (ZMod.val_coe_unit_coprime u).le, by
          rw [sameComp_iff h.good, map_nsmul, hQ0, hQ1, hcast, hc2]⟩
      rw [v1]
      simp only [Option.map_some]
      rw [sameComp_iff h.good, map_nsmul, hQ0, hQ1] at v3
      have hvN : Nat.Coprime v N := by
        have : 0 < Nat.gcd v N := Nat.gcd_pos_of_pos_right _ hN
        show Nat.gcd v N = 1
        omega
      have hvn1 : Nat.Coprime v n1 := Nat.Coprime.coprime_dvd_right hN1 hvN
      have hb1 := bezout_fst ((v : ℤ) * n0) n1
      have hb2 := bezout_identity ((v : ℤ) * n0) n1
      set a := (bezout ((v : ℤ) * n0) n1).2.1
      set b := (bezout ((v : ℤ) * n0) n1).2.2
      have hgg : (bezout ((v : ℤ) * n0) n1).1 = (g : ℤ) := by
        rw [hb1]
        congr 1
        have : ((v : ℤ) * n0).gcd (n1 : ℤ) = Nat.gcd (v * n0) n1 := by
          rw [← Int.gcd_natCast_natCast]; push_cast; rfl
        rw [this]
        exact Nat.Coprime.gcd_mul_left_cancel _ hvn1
      rw [hgg] at hb2 ⊢
      have gz : (g : ℤ) ≠ 0 := by exact_mod_cast gpos.ne'
      have hs' : (n0 : ℤ) = g * s := by exact_mod_cast hs
      have ht' : (n1 : ℤ) = g * t := by exact_mod_cast ht
      have d1 : ((n0 * n1 : ℕ) : ℤ).tdiv g = ((n0 * t : ℕ) : ℤ) := by
        rw [show ((n0 * n1 : ℕ) : ℤ) = g * ((n0 * t : ℕ) : ℤ) by push_cast; rw [ht']; ring]
        exact Int.mul_tdiv_cancel_left _ gz
      have d2 : (-(v : ℤ) * n0).tdiv g = -(v * s) := by
        rw [show (-(v : ℤ) * n0) = g * (-(v * s)) by rw [hs']; ring]
        exact Int.mul_tdiv_cancel_left _ gz
      have d3 : (n1 : ℤ).tdiv g = t := by rw [ht']; exact Int.mul_tdiv_cancel_left _ gz
      rw [d1, d2, d3]
      have hbez : a * v * s + b * t = 1 := by
        have : (g : ℤ) * (a * v * s + b * t) = g * 1 := by
          rw [mul_one]
          rw [hs', ht'] at hb2
          linear_combination hb2
        exact mul_left_cancel₀ gz this
      have q1zero : φ ((-((v : ℤ) * s)) • P0 + (t : ℤ) • P1) = 0 := by
        rw [map_add, hQ1, map_zsmul, ← v3, neg_smul, mul_smul, natCast_zsmul, natCast_zsmul]
        abel
      have eP0 : P0 = (t : ℤ) • (b • P0 + a • P1) + (-a) • ((-((v : ℤ) * s)) • P0 + (t : ℤ) • P1) := by
        have : (t : ℤ) • (b • P0 + a • P1) + (-a) • ((-((v : ℤ) * s)) • P0 + (t : ℤ) • P1) =
            (a * v * s + b * t) • P0 + (t * a - a * t) • P1 := by
          simp only [smul_add, smul_smul, add_smul, sub_smul]
          simp only [← smul_smul, neg_smul, smul_neg, neg_neg]
          simp only [smul_smul]
          rw [show a * ((v : ℤ) * s) = a * v * s by ring, show (t : ℤ) * b = b * t by ring]
          abel
        rw [this, hbez, one_smul, show (t : ℤ) * a - a * t = 0 by ring, zero_smul, add_zero]
      have eP1 : P1 = ((v : ℤ) * s) • (b • P0 + a • P1) + b • ((-((v : ℤ) * s)) • P0 + (t : ℤ) • P1) := by
        have : ((v : ℤ) * s) • (b • P0 + a • P1) + b • ((-((v : ℤ) * s)) • P0 + (t : ℤ) • P1) =
            (v * s * b - b * (v * s)) • P0 + (a * v * s + b * t) • P1 := by
          simp only [smul_add, smul_smul, add_smul, sub_smul]
          rw [show b * -((v : ℤ) * s) = -(b * (v * s)) by ring, neg_smul, show (v : ℤ) * s * a = a * v * s by ring]
          abel
        rw [this, hbez, one_smul, show (v : ℤ) * s * b - b * (v * s) = 0 by ring, zero_smul, zero_add]
      refine ⟨_, _, _, rfl, ?_, q1zero, ⟨b, a, -(v * s), t, rfl, rfl⟩, ⟨t, -a, v * s, b, eP0, eP1⟩⟩
      rw [Int.toNat_natCast]
      -- the order of the new point
      have f0 : φ P0 = t • φ (b • P0 + a • P1) := by
        conv_lhs => rw [eP0]
        rw [map_add, map_zsmul φ (-a), q1zero, smul_zero, add_zero, map_zsmul, natCast_zsmul]
      have f1 : φ P1 = (v * s) • φ (b • P0 + a • P1) := by
        conv_lhs => rw [eP1]
        rw [map_add, map_zsmul φ b, q1zero, smul_zero, add_zero, map_zsmul]
        rw [← Nat.cast_mul, natCast_zsmul]
      have hl : n0 * t = Nat.lcm n0 n1 := by
        unfold Nat.lcm
        rw [← hgdef]
        symm
        apply Nat.div_eq_of_eq_mul_right gpos
        rw [ht, ← mul_assoc, mul_comm n0 g, mul_assoc]
      apply Nat.dvd_antisymm
      · rw [hl]
        refine Nat.lcm_dvd ?_ ?_
        · rw [hn0]; conv_lhs => rw [f0]
          exact addOrderOf_dvd_of_mem_zmultiples ⟨t, by simp⟩
        · rw [hn1]; conv_lhs => rw [f1]
          exact addOrderOf_dvd_of_mem_zmultiples ⟨(v * s : ℕ), by simp [mul_smul]⟩
      · rw [addOrderOf_dvd_iff_nsmul_eq_zero, map_add, map_zsmul, map_zsmul, smul_add]
        have z0 : (n0 * t) • φ P0 = 0 := by
          rw [← addOrderOf_dvd_iff_nsmul_eq_zero, ← hn0]; exact Dvd.intro _ rfl
        have z1 : (n0 * t) • φ P1 = 0 := by
          rw [← addOrderOf_dvd_iff_nsmul_eq_zero, ← hn1, hl]; exact Nat.dvd_lcm_right _ _
        rw [smul_comm, z0, smul_zero, zero_add, smul_comm, z1, smul_zero]
  unfold cycStep
  simp only []
  rw [if_neg h1]
  by_cases hgt : orderCG E p p1 [N] > m
  · simp only [if_pos hgt]
    obtain ⟨m', q0, q1, r1, r2, r3, ⟨a, b, c, d, r4, r5⟩, ⟨a', b', c', d', r6, r7⟩⟩ := main p1 p0 _ m hk hm
    exact ⟨m', q0, q1, r1, r2, r3, ⟨b, a, d, c, by rw [r4]; abel, by rw [r5]; abel⟩, ⟨c', d', a', b', r7, r6⟩⟩
  · simp only [if_neg hgt]
    exact main p0 p1 m _ hm hk

end Eclib.Egr
