import Verif.Sift.Model
import Verif.Marith.Lemmas
import Mathlib.NumberTheory.LegendreSymbol.QuadraticChar.Basic
import Mathlib.Data.List.Sort
import Mathlib.Tactic.LinearCombination

/-!
# The roots of the cubic and the table of squares
-/

namespace Eclib.Sift

/-- the cubic -/
def cub (b c d t : ℤ) : ℤ := ((t + b) * t + c) * t + d

/-- the relations between the coefficients and three roots modulo `p` -/
def Vieta (p b c d t0 t1 t2 : ℤ) : Prop :=
  p ∣ t0 + t1 + t2 + b ∧ p ∣ t0 * t1 + t0 * t2 + t1 * t2 - c ∧ p ∣ t0 * t1 * t2 + d

theorem sort3 (P : List ℤ → Prop) (a b c : ℤ) (h : ∀ l, l.Perm [a, b, c] → l.Pairwise (· ≤ ·) → P l) :
    P ([a, b, c].insertionSort (· ≤ ·)) :=
  h _ (List.perm_insertionSort _ _) (List.pairwise_insertionSort _ _)

theorem Vieta.perm {p b c d t0 t1 t2 : ℤ} (h : Vieta p b c d t0 t1 t2) {l : List ℤ} (hl : l.Perm [t0, t1, t2]) :
    ∃ s0 s1 s2, l = [s0, s1, s2] ∧ Vieta p b c d s0 s1 s2 := by
  obtain ⟨s0, s1, s2, rfl⟩ := List.length_eq_three.1 hl.length_eq
  refine ⟨s0, s1, s2, rfl, ?_⟩
  obtain ⟨h1, h2, h3⟩ := h
  have e1 := hl.sum_eq
  have e3 := hl.prod_eq
  have e2 := (hl.map (fun x : ℤ => x * x)).sum_eq
  simp only [List.sum_cons, List.sum_nil, List.prod_cons, List.prod_nil, List.map_cons, List.map_nil] at e1 e2 e3
  refine ⟨?_, ?_, ?_⟩
  · rw [show s0 + s1 + s2 + b = t0 + t1 + t2 + b by linarith]
    exact h1
  · rw [show s0 * s1 + s0 * s2 + s1 * s2 - c = t0 * t1 + t0 * t2 + t1 * t2 - c by
      have : (s0 + s1 + s2) ^ 2 = (t0 + t1 + t2) ^ 2 := by rw [show s0 + s1 + s2 = t0 + t1 + t2 by linarith]
      nlinarith]
    exact h2
  · rw [show s0 * s1 * s2 + d = t0 * t1 * t2 + d by nlinarith]
    exact h3

theorem vieta_of_two {p : ℕ} (hp : p.Prime) {b c d r0 r1 r2 : ℤ} (h0 : (p : ℤ) ∣ cub b c d r0) (h1 : (p : ℤ) ∣ cub b c d r1)
    (hne : ¬ (p : ℤ) ∣ r0 - r1) (h2 : (p : ℤ) ∣ r2 + r0 + r1 + b) : Vieta p b c d r0 r1 r2 := by
  have := Fact.mk hp
  have cast (a : ℤ) : (p : ℤ) ∣ a ↔ (a : ZMod p) = 0 := (ZMod.intCast_zmod_eq_zero_iff_dvd a p).symm
  unfold Vieta
  unfold cub at h0 h1
  rw [cast] at h0 h1 hne h2
  rw [cast, cast, cast]
  push_cast at h0 h1 hne h2 ⊢
  have hc : (r0 : ZMod p) * r1 + r0 * r2 + r1 * r2 - c = 0 := by
    have : ((r0 : ZMod p) - r1) * (r0 * r1 + r0 * r2 + r1 * r2 - c) = 0 := by
      linear_combination h1 - h0 + ((r0 : ZMod p) ^ 2 - r1 ^ 2) * h2
    exact (mul_eq_zero.1 this).resolve_left hne
  refine ⟨by linear_combination h2, hc, ?_⟩
  linear_combination h0 - (r0 : ZMod p) ^ 2 * h2 + (r0 : ZMod p) * hc

theorem Vieta.cub_dvd {p : ℕ} (hp : p.Prime) {b c d t0 t1 t2 : ℤ} (h : Vieta p b c d t0 t1 t2) (t : ℤ) :
    (p : ℤ) ∣ cub b c d t ↔ (p : ℤ) ∣ t - t0 ∨ (p : ℤ) ∣ t - t1 ∨ (p : ℤ) ∣ t - t2 := by
  have := Fact.mk hp
  have cast (a : ℤ) : (p : ℤ) ∣ a ↔ (a : ZMod p) = 0 := (ZMod.intCast_zmod_eq_zero_iff_dvd a p).symm
  obtain ⟨h1, h2, h3⟩ := h
  rw [cast] at h1 h2 h3
  rw [cast, cast, cast, cast]
  have e : (cub b c d t : ZMod p) = ((t - t0 : ℤ) : ZMod p) * (((t - t1 : ℤ) : ZMod p) * ((t - t2 : ℤ) : ZMod p)) := by
    unfold cub
    push_cast at h1 h2 h3 ⊢
    linear_combination (t : ZMod p) ^ 2 * h1 - (t : ZMod p) * h2 + h3
  rw [e, mul_eq_zero, mul_eq_zero]

/-- what the list of roots is -/
structure RootsOk (p : ℕ) (b c d : ℤ) (l : List ℤ) : Prop where
  mem : ∀ t, t ∈ l ↔ 0 ≤ t ∧ t < p ∧ (p : ℤ) ∣ cub b c d t
  sorted : l.Pairwise (· ≤ ·)
  shape : l = [] ∨ (∃ t, l = [t]) ∨ ∃ t0 t1 t2, l = [t0, t1, t2] ∧ Vieta p b c d t0 t1 t2

theorem dvd_small {p : ℕ} {a b : ℤ} (ha : 0 ≤ a) (ha' : a < p) (hb : 0 ≤ b) (hb' : b < p) (h : (p : ℤ) ∣ a - b) : a = b := by
  obtain ⟨k, hk⟩ := h
  have : k = 0 := by nlinarith
  subst this
  linarith

theorem nrcLoop_ok {p : ℕ} (hp : p.Prime) (b c d : ℤ) : ∀ (n : ℕ) (r : ℤ) (roots : List ℤ), 0 ≤ r → r + n = p →
    (∀ t, t ∈ roots ↔ 0 ≤ t ∧ t < r ∧ (p : ℤ) ∣ cub b c d t) → (roots = [] ∨ ∃ t, roots = [t]) →
    RootsOk p b c d (nrcLoop b c d p n r roots)
  | 0, r, roots, hr, hn, hm, hs => by
    rw [nrcLoop]
    have : r = p := by simpa using hn
    subst this
    refine ⟨hm, ?_, ?_⟩
    · rcases hs with rfl | ⟨t, rfl⟩ <;> simp
    · rcases hs with rfl | ⟨t, rfl⟩
      · exact Or.inl rfl
      · exact Or.inr (Or.inl ⟨t, rfl⟩)
  | n + 1, r, roots, hr, hn, hm, hs => by
    have hp0 : (0 : ℤ) < p := by exact_mod_cast hp.pos
    push_cast at hn
    unfold nrcLoop
    have hd : ((((r + b) * r + c) * r + d).tmod p == 0) = true ↔ (p : ℤ) ∣ cub b c d r := by
      rw [beq_iff_eq]
      exact (Int.dvd_iff_tmod_eq_zero).symm
    split
    · rename_i h
      rw [hd] at h
      rcases hs with rfl | ⟨r0, rfl⟩
      · apply nrcLoop_ok hp b c d n (r + 1) ([] ++ [r]) (by omega) (by omega)
        · intro t
          have := hm t
          simp only [List.not_mem_nil, false_iff] at this
          simp only [List.nil_append, List.mem_singleton]
          constructor
          · rintro rfl
            exact ⟨hr, by omega, h⟩
          · rintro ⟨h1, h2, h3⟩
            by_contra hne
            exact this ⟨h1, by omega, h3⟩
        · exact Or.inr ⟨r, rfl⟩
      · obtain ⟨g1, g2, g3⟩ := (hm r0).1 (by simp)
        have hr2 := Arith.posmod_eq_emod (-b - r0 - r) p hp0
        set r2 := Arith.posmod (-b - r0 - r) p with hr2d
        have hr20 : 0 ≤ r2 := by
          rw [hr2]
          exact Int.emod_nonneg _ hp0.ne'
        have hr2p : r2 < p := by
          rw [hr2]
          exact Int.emod_lt_of_pos _ hp0
        have hr2d : (p : ℤ) ∣ r2 + r0 + r + b := by
          have := Int.emod_add_mul_ediv (-b - r0 - r) p
          rw [← hr2] at this
          exact ⟨-((-b - r0 - r) / p), by linarith⟩
        have hne : ¬ (p : ℤ) ∣ r0 - r := by
          intro h'
          have := dvd_small g1 (by omega) hr (by omega) h'
          omega
        have hV := vieta_of_two hp g3 h hne hr2d
        refine sort3 (fun l => RootsOk p b c d l) r0 r r2 ?_
        intro l hl hsrt
        refine ⟨?_, hsrt, Or.inr (Or.inr (hV.perm hl))⟩
        intro t
        rw [hl.mem_iff]
        simp only [List.mem_cons, List.not_mem_nil, or_false]
        constructor
        · rintro (rfl | rfl | rfl)
          · exact ⟨g1, by omega, g3⟩
          · exact ⟨hr, by omega, h⟩
          · exact ⟨hr20, hr2p, (hV.cub_dvd hp _).2 (Or.inr (Or.inr (by simp)))⟩
        · rintro ⟨h1, h2, h3⟩
          rcases (hV.cub_dvd hp t).1 h3 with h4 | h4 | h4
          · exact Or.inl (dvd_small h1 h2 g1 (by omega) h4)
          · exact Or.inr (Or.inl (dvd_small h1 h2 hr (by omega) h4))
          · exact Or.inr (Or.inr (dvd_small h1 h2 hr20 hr2p h4))
    · rename_i h
      rw [hd] at h
      apply nrcLoop_ok hp b c d n (r + 1) roots (by omega) (by omega) _ hs
      intro t
      rw [hm t]
      constructor
      · rintro ⟨h1, h2, h3⟩
        exact ⟨h1, by omega, h3⟩
      · rintro ⟨h1, h2, h3⟩
        refine ⟨h1, ?_, h3⟩
        by_contra h4
        have : t = r := by omega
        subst this
        exact h h3

/-- **`nrootscubic`.** -/
theorem nrootscubic_ok {p : ℕ} (hp : p.Prime) (b c d : ℤ) : RootsOk p b c d (nrootscubic b c d p) := by
  apply nrcLoop_ok hp b c d _ 0 [] le_rfl (by simp)
  · intro t
    simp only [List.not_mem_nil, false_iff]
    omega
  · exact Or.inl rfl

/-! ## The table of squares -/

theorem foldl_set_length {f : ℕ → ℕ} : ∀ (l : List ℕ) (t : List Bool), (l.foldl (fun t j => t.set (f j) true) t).length = t.length
  | [], _ => rfl
  | j :: l, t => by
    rw [List.foldl_cons, foldl_set_length l]
    simp

theorem foldl_set_getD {f : ℕ → ℕ} {i : ℕ} : ∀ (l : List ℕ) (t : List Bool), i < t.length →
    ((l.foldl (fun t j => t.set (f j) true) t).getD i false = true ↔ t.getD i false = true ∨ ∃ j ∈ l, f j = i)
  | [], t, _ => by simp
  | j :: l, t, h => by
    rw [List.foldl_cons, foldl_set_getD l _ (by simpa using h)]
    by_cases hj : f j = i
    · subst hj
      simp [List.getD_eq_getElem?_getD, h]
    · simp [List.getD_eq_getElem?_getD, hj]

theorem squaresTab_iff {p : ℕ} (hp : p.Prime) (hp2 : p ≠ 2) {a : ℕ} (ha : a < p) :
    (squaresTab p).getD a false = true ↔ IsSquare (a : ZMod p) := by
  have := Fact.mk hp
  have hodd := hp.eq_two_or_odd.resolve_left hp2
  unfold squaresTab
  rw [foldl_set_getD (f := fun j => j * j % p) _ _ (by simpa using ha)]
  have h0 : (List.replicate p false).getD a false = false := by simp [List.getD_eq_getElem?_getD, ha]
  rw [h0]
  simp only [Bool.false_eq_true, false_or, List.mem_range]
  constructor
  · rintro ⟨j, _, h⟩
    refine ⟨(j : ZMod p), ?_⟩
    rw [← h]
    simp
  · rintro ⟨r, hr⟩
    have key (k : ℕ) (hk : (a : ZMod p) = k * k) : k * k % p = a := by
      rw [← Nat.cast_mul, ZMod.natCast_eq_natCast_iff'] at hk
      rw [← hk, Nat.mod_eq_of_lt ha]
    have hv := ZMod.val_lt r
    by_cases h : 2 * r.val < p
    · exact ⟨r.val, by omega, key _ (by rw [ZMod.natCast_zmod_val]; exact hr)⟩
    · refine ⟨p - r.val, by omega, key _ ?_⟩
      rw [Nat.cast_sub hv.le, ZMod.natCast_zmod_val, ZMod.natCast_self, hr]
      ring

theorem sq_posmod {p : ℕ} (hp : p.Prime) (hp2 : p ≠ 2) (v : ℤ) :
    (squaresTab p).getD (Marith.posmod v p).toNat false = true ↔ IsSquare (v : ZMod p) := by
  have hp0 : (0 : ℤ) < p := by exact_mod_cast hp.pos
  rw [Marith.posmod_pos v p hp0]
  have h1 := Int.emod_nonneg v hp0.ne'
  have h2 := Int.emod_lt_of_pos v hp0
  rw [squaresTab_iff hp hp2 (by omega)]
  have : ((v % (p : ℤ)).toNat : ZMod p) = (v : ZMod p) := by
    rw [← Int.cast_natCast, Int.toNat_of_nonneg h1]
    simp
  rw [this]

theorem posmod_zero {p : ℕ} (hp : p.Prime) (v : ℤ) : Marith.posmod v p = 0 ↔ (p : ℤ) ∣ v := by
  have hp0 : (0 : ℤ) < p := by exact_mod_cast hp.pos
  rw [Marith.posmod_pos v p hp0]
  exact ⟨Int.dvd_of_emod_eq_zero, Int.emod_eq_zero_of_dvd⟩

/-- the signs are the quadratic characters -/
theorem sgn_eq {p : ℕ} [hp : Fact p.Prime] (hp2 : p ≠ 2) (v : ℤ) :
    sgn (squaresTab p) (Marith.posmod v p) = quadraticChar (ZMod p) (v : ZMod p) := by
  unfold sgn
  by_cases h0 : (p : ℤ) ∣ v
  · have hv : (v : ZMod p) = 0 := (ZMod.intCast_zmod_eq_zero_iff_dvd v p).2 h0
    rw [(sq_posmod hp.out hp2 v).2 (by rw [hv]; exact ⟨0, by simp⟩), (posmod_zero hp.out v).2 h0, hv]
    simp
  · have hv : (v : ZMod p) ≠ 0 := by rwa [Ne, ZMod.intCast_zmod_eq_zero_iff_dvd]
    have hz : (Marith.posmod v p == 0) = false := by
      rw [beq_eq_false_iff_ne, Ne, posmod_zero hp.out]
      exact h0
    rw [hz]
    have h2 := sq_posmod hp.out hp2 v
    rcases quadraticChar_dichotomy hv with h | h
    · rw [h2.2 ((quadraticChar_one_iff_isSquare hv).1 h), h]
      simp
    · have hn : ¬ IsSquare (v : ZMod p) := by
        intro hs
        rw [(quadraticChar_one_iff_isSquare hv).2 hs] at h
        norm_num at h
      rw [← h2, Bool.not_eq_true] at hn
      rw [hn, h]
      simp

end Eclib.Sift
