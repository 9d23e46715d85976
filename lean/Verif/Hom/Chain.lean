import Verif.Hom.SymModel
import Verif.Hom.Cusp
import Verif.Symb.CuspProps

/-!
# Modular symbols as sums of M-symbols: continued fractions
-/

set_option linter.unusedSectionVars false

namespace Eclib.Hom

open Ratl (R)
open Symb.SymbSpec Symb.CuspSpec ManinSpec

variable {K : Type*} [Field K] {N pf : ℤ} {f : OnePoint ℚ → OnePoint ℚ → K} {φ : ℤ → ℤ → K}

/-- the sum over a list of M-symbols -/
def lsum (φ : ℤ → ℤ → K) (l : List (ℤ × ℤ)) : K := (l.map fun s => φ s.1 s.2).sum

theorem lsum_cons (φ : ℤ → ℤ → K) (s : ℤ × ℤ) (l : List (ℤ × ℤ)) : lsum φ (s :: l) = φ s.1 s.2 + lsum φ l := by
  simp [lsum]

theorem ne_of_det {a b c d : ℤ} (h : a * d - b * c = 1) : a ≠ 0 ∨ c ≠ 0 := by
  by_contra hc
  push Not at hc
  rw [hc.1, hc.2] at h
  norm_num at h

theorem mod_quo (a : ℤ) {b : ℤ} (hb : b ≠ 0) : (a - Arith.mod a b).tdiv b * b + Arith.mod a b = a := by
  obtain ⟨⟨k, hk⟩, -, -⟩ := Arith.Props.C04_mod a b hb
  have e : a - Arith.mod a b = b * -k := by linear_combination -hk
  rw [e, Int.mul_tdiv_cancel_left _ hb]
  linear_combination hk

/-- the loop: a chain of unimodular pairs from `A/c` to the image of `a/b` -/
theorem cf_spec (hf : IsModSym N pf f) (hA : Assoc f φ) (n : ℕ) : ∀ {A B c d a b : ℤ}, A * d - B * c = 1 → a ≠ 0 ∨ b ≠ 0 →
    b.natAbs < n → lsum φ (cf c d a b) = f (cusp A c) (cusp (A * a + B * b) (c * a + d * b)) ∧
      ∀ s ∈ cf c d a b, ∃ x y : ℤ, x * s.2 - y * s.1 = 1 := by
  induction n with
  | zero => intro A B c d a b _ _ h; omega
  | succ n ih =>
    intro A B c d a b hdet hab hn
    unfold cf
    by_cases hb : b = 0
    · subst hb
      have ha : a ≠ 0 := by simpa using hab
      rw [dif_pos rfl]
      refine ⟨?_, by simp⟩
      rw [mul_zero, mul_zero, add_zero, add_zero, mul_comm A, mul_comm c, cusp_scale ha, hf.self]
      simp [lsum]
    · rw [dif_neg hb]
      have hq := mod_quo a hb
      have hlt := natAbs_mod_lt a hb
      set b' := Arith.mod a b
      set q := (a - b').tdiv b
      simp only
      have hdet' : (q * A + B) * -c - -A * (q * c + d) = 1 := by linear_combination hdet
      obtain ⟨h1, h2⟩ := ih (A := q * A + B) (B := -A) (c := q * c + d) (d := -c) (a := -b) (b := b') hdet'
        (Or.inl (by simpa using hb)) (by omega)
      refine ⟨?_, ?_⟩
      · rw [lsum_cons, h1, hA _ _ _ _ hdet', cusp_neg, hf.add, ← cusp_neg (A * a + B * b)]
        congr 2
        · linear_combination -A * hq
        · linear_combination -c * hq
      · intro s hs
        rcases List.mem_cons.1 hs with rfl | hs
        · exact ⟨_, _, hdet'⟩
        · exact h2 s hs

/-- the cusp of a rational of the code -/
noncomputable def rc (r : R) : OnePoint ℚ := cusp r.n r.d

theorem lsum_swap (hφ : IsManin N pf φ) (l : List (ℤ × ℤ)) (hl : ∀ s ∈ l, ∃ x y : ℤ, x * s.2 - y * s.1 = 1) :
    lsum φ (l.map fun s => (-s.2, s.1)) = -lsum φ l := by
  induction l with
  | nil => simp [lsum]
  | cons s l ih =>
    obtain ⟨x, y, h⟩ := hl s List.mem_cons_self
    have h2 := hφ.two (unimod_of_det (N := N) h)
    rw [List.map_cons, lsum_cons, lsum_cons, ih fun s hs => hl s (List.mem_cons_of_mem _ hs)]
    linear_combination h2

/-- `add_coords(nn,dd)`: the modular symbol `{0, nn/dd}` -/
theorem addRat_list (hf : IsModSym N pf f) (hA : Assoc f φ) {nn dd : ℤ} (h : nn ≠ 0 ∨ dd ≠ 0) :
    lsum φ ((0, 1) :: cf 0 1 nn dd) = f (cusp 0 1) (cusp nn dd) ∧
      ∀ s ∈ (0, 1) :: cf 0 1 nn dd, ∃ x y : ℤ, x * s.2 - y * s.1 = 1 := by
  obtain ⟨h1, h2⟩ := cf_spec hf hA (dd.natAbs + 1) (A := 1) (B := 0) (c := 0) (d := 1) (a := nn) (b := dd) (by ring) h (by omega)
  refine ⟨?_, ?_⟩
  · rw [lsum_cons, h1, hA 1 0 0 1 (by ring), hf.add]
    congr 2 <;> ring
  · intro s hs
    rcases List.mem_cons.1 hs with rfl | hs
    · exact ⟨1, 0, by ring⟩
    · exact h2 s hs

/-- `add_coords(m)`: the modular symbol `{al, be}` -/
theorem symList_spec (hf : IsModSym N pf f) (hφ : IsManin N pf φ) (hA : Assoc f φ) {al be : R} (ha : IsCusp al) (hb : IsCusp be) :
    lsum φ (symList al be) = f (rc al) (rc be) ∧ ∀ s ∈ symList al be, ∃ x y : ℤ, x * s.2 - y * s.1 = 1 := by
  unfold symList rc
  obtain ⟨b, d⟩ := al
  obtain ⟨a, c⟩ := be
  obtain ⟨⟨u1, v1, hbd⟩, -⟩ := ha
  obtain ⟨hac, -⟩ := hb
  simp only at hbd hac ⊢
  obtain ⟨b', d', e1, e2, hpm, hc, hbd'⟩ : ∃ b' d' : ℤ, (if a * d - b * c < 0 then -b else b) = b' ∧
      (if a * d - b * c < 0 then -d else d) = d' ∧ (if a * d - b * c < 0 then -(a * d - b * c) else a * d - b * c) = a * d' - b' * c ∧
      cusp b d = cusp b' d' ∧ (b' ≠ 0 ∨ d' ≠ 0) := by
    have hne : b ≠ 0 ∨ d ≠ 0 := by
      by_contra hc
      push Not at hc
      rw [hc.1, hc.2] at hbd
      norm_num at hbd
    by_cases h : a * d - b * c < 0
    · simp only [if_pos h]
      exact ⟨_, _, rfl, rfl, by ring, (cusp_neg b d).symm, by simpa using hne⟩
    · simp only [if_neg h]
      exact ⟨_, _, rfl, rfl, by ring, rfl, hne⟩
  rw [e1, e2, hpm, hc]
  by_cases h1 : a * d' - b' * c = 1
  · rw [if_pos h1]
    refine ⟨?_, ?_⟩
    · rw [lsum_cons, hA a b' c d' h1]
      simp [lsum]
    · intro s hs
      obtain rfl := List.mem_singleton.1 hs
      exact ⟨_, _, h1⟩
  · rw [if_neg h1]
    have hg := Arith.bezout_fst a c
    have hi := Arith.bezout_identity a c
    rw [Int.isCoprime_iff_gcd_eq_one.1 hac] at hg
    rw [hg] at hi
    set u := (Arith.bezout a c).2.1
    set v := (Arith.bezout a c).2.2
    push_cast at hi
    have hdet : a * u - -v * c = 1 := by linear_combination hi
    have x1 : a * (b' * u + v * d') + -v * (a * d' - b' * c) = b' := by linear_combination b' * hi
    have x2 : c * (b' * u + v * d') + u * (a * d' - b' * c) = d' := by linear_combination d' * hi
    obtain ⟨h2, h3⟩ := cf_spec hf hA ((a * d' - b' * c).natAbs + 1) (A := a) (B := -v) (c := c) (d := u)
      (a := b' * u + v * d') (b := a * d' - b' * c) hdet (by
        by_contra hcon
        push Not at hcon
        rw [hcon.1, hcon.2] at x1 x2
        simp at x1 x2
        rcases hbd' with h | h
        · exact h x1.symm
        · exact h x2.symm) (by omega)
    rw [x1, x2] at h2
    refine ⟨?_, ?_⟩
    · rw [lsum_swap hφ _ h3, h2, ← hf.swap]
    · intro s hs
      obtain ⟨s', hs', rfl⟩ := List.mem_map.1 hs
      obtain ⟨x, y, h⟩ := h3 s' hs'
      exact ⟨-y, x, by simp only; linear_combination h⟩

/-- the constructor of rationals -/
theorem mk_cusp {n d : ℤ} (h : n ≠ 0 ∨ d ≠ 0) : IsCusp (Ratl.mk false n d) ∧ rc (Ratl.mk false n d) = cusp n d := by
  obtain ⟨g, n', d', eg, hg0, en, ed, hcop⟩ : ∃ g n' d' : ℤ, Arith.gcd n d = g ∧ 0 < g ∧ n = g * n' ∧ d = g * d' ∧ IsCoprime n' d' := by
    have hg0 : (Int.gcd n d : ℤ) ≠ 0 := by
      intro hc
      have := Int.gcd_eq_zero_iff.1 (by exact_mod_cast hc)
      tauto
    obtain ⟨n', en⟩ := Int.gcd_dvd_left n d
    obtain ⟨d', ed⟩ := Int.gcd_dvd_right n d
    refine ⟨_, n', d', Arith.gcd_eq n d, by positivity, en, ed, Int.gcdA n d, Int.gcdB n d, ?_⟩
    have := Int.gcd_eq_gcd_ab n d
    apply mul_left_cancel₀ hg0
    linear_combination -this - Int.gcdA n d * en - Int.gcdB n d * ed
  have hc : cusp n d = cusp n' d' := by
    rw [en, ed, cusp_scale hg0.ne']
  have hr : (if Arith.gcd n d > 1 then (⟨Ratl.quo false n (Arith.gcd n d), Ratl.quo false d (Arith.gcd n d)⟩ : R) else ⟨n, d⟩) =
      ⟨n', d'⟩ := by
    rw [eg]
    by_cases h1 : g > 1
    · rw [if_pos h1]
      unfold Ratl.quo
      rw [if_neg (by simp), if_neg (by simp), en, ed, Int.mul_tdiv_cancel_left _ hg0.ne', Int.mul_tdiv_cancel_left _ hg0.ne']
    · rw [if_neg h1]
      have : g = 1 := by omega
      rw [en, ed, this, one_mul, one_mul]
  unfold Ratl.mk Ratl.cancel
  simp only
  rw [hr]
  simp only
  split_ifs with h2
  · refine ⟨⟨hcop.neg_left.neg_right, by simp only; omega⟩, ?_⟩
    rw [hc]
    exact cusp_neg _ _
  · exact ⟨⟨hcop, by simp only; omega⟩, hc.symm⟩

/-- `modsym(s)`: the modular symbol of an M-symbol -/
theorem modsym_spec (hφ : IsManin N pf φ) (hA : Assoc f φ) (hN : 1 < N) {s : ℤ × ℤ} (hs : Unimod N s.1 s.2) :
    IsCusp (modsym s).1 ∧ IsCusp (modsym s).2 ∧ φ s.1 s.2 = f (rc (modsym s).1) (rc (modsym s).2) := by
  obtain ⟨c, d⟩ := s
  obtain ⟨a, b, k, hs⟩ := hs
  simp only at hs
  unfold modsym
  have hg := Arith.bezout_fst c d
  have hi := Arith.bezout_identity c d
  simp only
  set x := (Arith.bezout c d).2.1
  set y := (Arith.bezout c d).2.2
  set h := (Arith.bezout c d).1
  obtain ⟨c', ec⟩ : h ∣ c := hg ▸ Int.gcd_dvd_left c d
  obtain ⟨d', ed⟩ : h ∣ d := hg ▸ Int.gcd_dvd_right c d
  have hh : h ≠ 0 := by
    intro h0
    rw [h0, zero_mul] at ec ed
    rw [ec, ed] at hs
    have : N ∣ 1 := ⟨k, by linear_combination -hs⟩
    have := Int.le_of_dvd one_pos this
    omega
  have hdet : y * d' - -x * c' = 1 := by
    apply mul_left_cancel₀ hh
    linear_combination hi - x * ec - y * ed
  have h1 : -x ≠ 0 ∨ d' ≠ 0 := by
    by_contra hcon
    push Not at hcon
    rw [hcon.1, hcon.2] at hdet
    norm_num at hdet
  have h2 := ne_of_det hdet
  rw [ec, ed, Int.mul_tdiv_cancel_left _ hh, Int.mul_tdiv_cancel_left _ hh]
  obtain ⟨k1, k2⟩ := mk_cusp h1
  obtain ⟨k3, k4⟩ := mk_cusp h2
  refine ⟨k1, k3, ?_⟩
  rw [k2, k4, ← hA _ _ _ _ hdet]
  have hu : IsCoprime h N := ⟨a * c' + b * d', k, by linear_combination hs - a * ec - b * ed⟩
  exact (hφ.equiv (unimod_of_det hdet) ⟨h, hu, by simp, by simp⟩).symm

end Eclib.Hom
