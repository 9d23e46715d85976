import Verif.Symb.CuspModel
import Verif.Symb.Specials

/-!
# Equivalence of cusps (C41)
-/

namespace Eclib.Symb

open Eclib.Ratl (R)

namespace CuspSpec

/-- a cusp: a fraction in lowest terms, possibly `±1/0` -/
def IsCusp (c : R) : Prop := IsCoprime c.n c.d ∧ 0 ≤ c.d

/-- the matrix `[a b; c d]` maps the cusp `x` to the cusp `y` -/
def Maps (a b c d : ℤ) (x y : R) : Prop :=
  (a * x.n + b * x.d = y.n ∧ c * x.n + d * x.d = y.d) ∨
  (a * x.n + b * x.d = -y.n ∧ c * x.n + d * x.d = -y.d)

/-- equivalence under `Γ₀(N)` -/
def Gamma0 (N : ℤ) (x y : R) : Prop :=
  ∃ a b c d : ℤ, a * d - b * c = 1 ∧ N ∣ c ∧ Maps a b c d x y

/-- equivalence under the group generated by `Γ₀(N)` and `diag(-1,1)`: the matrices of
determinant `±1` with lower left entry divisible by `N` -/
def Gamma0pm (N : ℤ) (x y : R) : Prop :=
  ∃ a b c d : ℤ, (a * d - b * c = 1 ∨ a * d - b * c = -1) ∧ N ∣ c ∧ Maps a b c d x y

/-- the relation tested: with or without `diag(-1,1)` -/
def CEq (pf N : ℤ) (x y : R) : Prop := if pf = 1 then Gamma0pm N x y else Gamma0 N x y

end CuspSpec

open CuspSpec

/-- the cusp `-x` -/
def cneg (x : R) : R := ⟨-x.n, x.d⟩

theorem IsCusp.neg {x : R} (h : IsCusp x) : IsCusp (cneg x) := by
  obtain ⟨⟨a, b, e⟩, h0⟩ := h
  exact ⟨⟨-a, b, by simp only [cneg]; linear_combination e⟩, h0⟩

theorem neg_eq {x : R} (h : IsCusp x) : Ratl.neg false x = cneg x := by
  have hg : Int.gcd (-x.n) x.d = 1 := by
    rw [Int.neg_gcd]; exact Int.isCoprime_iff_gcd_eq_one.1 h.1
  have h0 := h.2
  simp only [Ratl.neg, Ratl.mk, Ratl.cancel, Arith.gcd_eq, hg]
  norm_num [cneg]
  omega

theorem gamma0_pos {N : ℤ} {x y : R} (h : Gamma0 N x y) : ∃ a b c d : ℤ, a * d - b * c = 1 ∧ N ∣ c ∧
    a * x.n + b * x.d = y.n ∧ c * x.n + d * x.d = y.d := by
  obtain ⟨a, b, c, d, hdet, hc, ⟨e1, e2⟩ | ⟨e1, e2⟩⟩ := h
  · exact ⟨a, b, c, d, hdet, hc, e1, e2⟩
  · exact ⟨-a, -b, -c, -d, by linear_combination hdet, (dvd_neg).2 hc, by linear_combination -e1,
      by linear_combination -e2⟩

/-- the criterion for `Γ₀(N)`-equivalence -/
theorem gamma0_iff {N : ℤ} {x y : R} {s1 r1 s2 r2 : ℤ}
    (h1 : x.n * s1 + x.d * r1 = 1) (h2 : y.n * s2 + y.d * r2 = 1) :
    Gamma0 N x y ↔ (Int.gcd (x.d * y.d) N : ℤ) ∣ s1 * y.d - s2 * x.d := by
  constructor
  · intro h
    obtain ⟨a, b, c, d, hdet, ⟨k, hk⟩, e1, e2⟩ := gamma0_pos h
    have e3 : y.n * (d * s1 - c * r1) - y.d * (b * s1 - a * r1) = 1 := by
      rw [← e1, ← e2]
      linear_combination (x.n * s1 + x.d * r1) * hdet + h1
    -- the second column of `γ M₁` in the basis `(y.n, y.d), (-r2, s2)`
    have e4 : d * s1 - c * r1 =
        (s2 * (b * s1 - a * r1) + r2 * (d * s1 - c * r1)) * y.d + s2 := by
      linear_combination -(d * s1 - c * r1) * h2 + s2 * e3
    have e5 : c = y.d * s1 - (d * s1 - c * r1) * x.d := by
      linear_combination s1 * e2 - c * h1
    generalize s2 * (b * s1 - a * r1) + r2 * (d * s1 - c * r1) = t at e4
    obtain ⟨u, hu⟩ := Int.gcd_dvd_left (x.d * y.d) N
    obtain ⟨v, hv⟩ := Int.gcd_dvd_right (x.d * y.d) N
    exact ⟨t * u + k * v, by linear_combination -e5 + x.d * e4 + hk + t * hu + k * hv⟩
  · rintro ⟨k, hk⟩
    have hb := Int.gcd_eq_gcd_ab (x.d * y.d) N
    -- s1 y.d - s2 x.d = X x.d y.d + k B N
    generalize Int.gcdA (x.d * y.d) N = A at hb
    generalize Int.gcdB (x.d * y.d) N = B at hb
    -- γ = M2 T^X M1⁻¹ with X = k A
    refine ⟨y.n * s1 - (y.n * (k * A) - r2) * x.d, y.n * r1 + (y.n * (k * A) - r2) * x.n,
      y.d * s1 - (y.d * (k * A) + s2) * x.d, y.d * r1 + (y.d * (k * A) + s2) * x.n, ?_, ?_, ?_⟩
    · linear_combination (y.n * s2 + y.d * r2) * h1 + h2
    · exact ⟨k * B, by linear_combination hk + k * hb⟩
    · left
      constructor
      · linear_combination y.n * h1
      · linear_combination y.d * h1

theorem gamma0pm_iff {N : ℤ} {x y : R} : Gamma0pm N x y ↔ Gamma0 N x y ∨ Gamma0 N x (cneg y) := by
  constructor
  · rintro ⟨a, b, c, d, hdet | hdet, hc, hm⟩
    · exact Or.inl ⟨a, b, c, d, hdet, hc, hm⟩
    · refine Or.inr ⟨-a, -b, c, d, by linear_combination -hdet, hc, ?_⟩
      rcases hm with ⟨e1, e2⟩ | ⟨e1, e2⟩
      · exact Or.inl ⟨by simp only [cneg]; linear_combination -e1, e2⟩
      · exact Or.inr ⟨by simp only [cneg]; linear_combination -e1, e2⟩
  · rintro (⟨a, b, c, d, hdet, hc, hm⟩ | ⟨a, b, c, d, hdet, hc, hm⟩)
    · exact ⟨a, b, c, d, Or.inl hdet, hc, hm⟩
    · refine ⟨-a, -b, c, d, Or.inr (by linear_combination -hdet), hc, ?_⟩
      rcases hm with ⟨e1, e2⟩ | ⟨e1, e2⟩
      · exact Or.inl ⟨by simp only [cneg] at e1; linear_combination -e1, e2⟩
      · exact Or.inr ⟨by simp only [cneg] at e1; linear_combination -e1, e2⟩

theorem Gamma0.refl (N : ℤ) (x : R) : Gamma0 N x x :=
  ⟨1, 0, 0, 1, by ring, dvd_zero _, Or.inl ⟨by ring, by ring⟩⟩

theorem Gamma0.symm {N : ℤ} {x y : R} (h : Gamma0 N x y) : Gamma0 N y x := by
  obtain ⟨a, b, c, d, hdet, hc, e1, e2⟩ := gamma0_pos h
  refine ⟨d, -b, -c, a, by linear_combination hdet, (dvd_neg).2 hc, Or.inl ⟨?_, ?_⟩⟩
  · linear_combination -d * e1 + b * e2 + x.n * hdet
  · linear_combination c * e1 - a * e2 + x.d * hdet

theorem Gamma0.trans {N : ℤ} {x y z : R} (h : Gamma0 N x y) (h' : Gamma0 N y z) : Gamma0 N x z := by
  obtain ⟨a, b, c, d, hdet, hc, e1, e2⟩ := gamma0_pos h
  obtain ⟨a', b', c', d', hdet', hc', e1', e2'⟩ := gamma0_pos h'
  refine ⟨a' * a + b' * c, a' * b + b' * d, c' * a + d' * c, c' * b + d' * d, ?_, ?_, Or.inl ⟨?_, ?_⟩⟩
  · linear_combination hdet' + (a' * d' - b' * c') * hdet
  · exact dvd_add (hc'.mul_right _) (hc.mul_left _)
  · linear_combination a' * e1 + b' * e2 + e1'
  · linear_combination c' * e1 + d' * e2 + e2'

theorem Gamma0.neg {N : ℤ} {x y : R} (h : Gamma0 N x y) : Gamma0 N (cneg x) (cneg y) := by
  obtain ⟨a, b, c, d, hdet, hc, e1, e2⟩ := gamma0_pos h
  refine ⟨a, -b, -c, d, by linear_combination hdet, (dvd_neg).2 hc, Or.inl ⟨?_, ?_⟩⟩
  · simp only [cneg]; linear_combination -e1
  · simp only [cneg]; linear_combination e2

theorem cneg_cneg (x : R) : cneg (cneg x) = x := by simp [cneg]

theorem CEq.symm {pf N : ℤ} {x y : R} (h : CEq pf N x y) : CEq pf N y x := by
  unfold CEq at *
  split_ifs at * with hp
  · rw [gamma0pm_iff] at *
    rcases h with h | h
    · exact Or.inl (Gamma0.symm h)
    · right
      have := Gamma0.neg (Gamma0.symm h)
      rwa [cneg_cneg] at this
  · exact Gamma0.symm h

theorem CEq.trans {pf N : ℤ} {x y z : R} (h : CEq pf N x y) (h' : CEq pf N y z) : CEq pf N x z := by
  unfold CEq at *
  split_ifs at * with hp
  · rw [gamma0pm_iff] at *
    rcases h with h | h <;> rcases h' with h' | h'
    · exact Or.inl (Gamma0.trans h h')
    · exact Or.inr (Gamma0.trans h h')
    · exact Or.inr (Gamma0.trans h (Gamma0.neg h'))
    · left
      have := Gamma0.trans h (Gamma0.neg h')
      rwa [cneg_cneg] at this
  · exact Gamma0.trans h h'

theorem gcd_table {N : ℤ} (hN : 0 < N) {M : Moddata} (hM : ModOK N M) (q : ℤ) :
    M.gcd q = some (Int.gcd q N : ℤ) := by
  obtain ⟨h1, h2⟩ := emod_lt_toNat hN q
  have := hM.tab.gcds _ h1
  rw [h2, gcd_emod] at this
  rw [Moddata.gcd, hM.hN, reduce_eq hN]
  exact this

theorem gcd_eq_of_gamma0 {N : ℤ} {x y : R} (h : Gamma0 N x y) :
    (Int.gcd x.d N : ℤ) ∣ Int.gcd y.d N := by
  obtain ⟨a, b, c, d, hdet, hc, e1, e2⟩ := gamma0_pos h
  apply Int.dvd_coe_gcd
  · rw [← e2]
    exact dvd_add (((Int.gcd_dvd_right x.d N).trans hc).mul_right _)
      ((Int.gcd_dvd_left x.d N).mul_left _)
  · exact Int.gcd_dvd_right _ _

theorem eq_gamma0 {N : ℤ} {x y : R} (hx : IsCusp x) (hy : IsCusp y) (h : Ratl.eq x y = true) :
    Gamma0 N x y := by
  have h : x.n * y.d = y.n * x.d := by simpa [Ratl.eq] using h
  obtain ⟨⟨a, b, e⟩, -⟩ := hx
  obtain ⟨⟨a', b', e'⟩, -⟩ := hy
  -- y = k x with k = ± 1
  have hk1 : y.n = (a * y.n + b * y.d) * x.n := by linear_combination -y.n * e - b * h
  have hk2 : y.d = (a * y.n + b * y.d) * x.d := by linear_combination -y.d * e + a * h
  generalize a * y.n + b * y.d = k at hk1 hk2
  have hu : IsUnit k := by
    rw [hk1, hk2] at e'
    exact IsUnit.of_mul_eq_one (a' * x.n + b' * x.d) (by linear_combination e')
  rcases Int.isUnit_iff.1 hu with rfl | rfl
  · exact ⟨1, 0, 0, 1, by ring, dvd_zero _, Or.inl ⟨by rw [hk1]; ring, by rw [hk2]; ring⟩⟩
  · exact ⟨1, 0, 0, 1, by ring, dvd_zero _, Or.inr ⟨by rw [hk1]; ring, by rw [hk2]; ring⟩⟩

theorem cuspeq_spec {N : ℤ} (hN : 0 < N) {M : Moddata} (hM : ModOK N M) {x y : R} (hx : IsCusp x)
    (hy : IsCusp y) (pf : ℤ) : ∃ b, cuspeq M x y pf = some b ∧ (b = true ↔ CEq pf N x y) := by
  have hb : ∀ z : R, IsCusp z →
      z.n * (Arith.bezout z.n z.d).2.1 + z.d * (Arith.bezout z.n z.d).2.2 = 1 := by
    intro z hz
    rw [Arith.bezout_identity, Arith.bezout_fst, Int.isCoprime_iff_gcd_eq_one.1 hz.1]; rfl
  have c1 := gamma0_iff (N := N) (hb x hx) (hb y hy)
  have c2 := gamma0_iff (N := N) (x := x) (y := cneg y) (s2 := -(Arith.bezout y.n y.d).2.1)
    (r2 := (Arith.bezout y.n y.d).2.2) (hb x hx)
    (by simp only [cneg]; linear_combination hb y hy)
  have hq3 : (Int.gcd (x.d * y.d) N : ℤ) ≠ 0 := by
    have := Int.gcd_pos_of_ne_zero_right (x.d * y.d) hN.ne'
    omega
  have hcn : (cneg y).d = y.d := rfl
  rw [hcn] at c2
  rw [cuspeq]
  by_cases he : Ratl.eq x y = true
  · rw [if_pos he]
    refine ⟨true, rfl, by simp only [true_iff]; unfold CEq; split_ifs; · exact gamma0pm_iff.2 (Or.inl (eq_gamma0 hx hy he))
                          · exact eq_gamma0 hx hy he⟩
  · rw [if_neg he, gcd_table hN hM, gcd_table hN hM, gcd_table hN hM]
    simp only
    by_cases hg : (Int.gcd x.d N : ℤ) = Int.gcd y.d N
    · rw [if_neg (by simpa using hg), if_neg hq3]
      by_cases h1 : ((Arith.bezout x.n x.d).2.1 * y.d - (Arith.bezout y.n y.d).2.1 * x.d).tmod
          (Int.gcd (x.d * y.d) N : ℤ) = 0
      · rw [if_pos h1]
        have := c1.2 (Int.dvd_of_tmod_eq_zero h1)
        refine ⟨true, rfl, ?_⟩
        simp only [true_iff]
        unfold CEq
        split_ifs
        · exact gamma0pm_iff.2 (Or.inl this)
        · exact this
      · rw [if_neg h1]
        have h1' : ¬ Gamma0 N x y := fun h => h1 (Int.tmod_eq_zero_of_dvd (c1.1 h))
        by_cases hp : pf = 1
        · rw [if_neg (by simpa using hp)]
          refine ⟨_, rfl, ?_⟩
          rw [CEq, if_pos hp, gamma0pm_iff, c2]
          simp only [decide_eq_true_eq, h1', false_or]
          rw [neg_mul, sub_neg_eq_add]
          exact ⟨Int.dvd_of_tmod_eq_zero, Int.tmod_eq_zero_of_dvd⟩
        · rw [if_pos hp]
          refine ⟨false, rfl, ?_⟩
          rw [CEq, if_neg hp]
          simpa using h1'
    · rw [if_pos (by simpa using hg)]
      have n1 : ¬ Gamma0 N x y := fun h => hg (Int.dvd_antisymm (by omega) (by omega)
        (gcd_eq_of_gamma0 h) (gcd_eq_of_gamma0 (Gamma0.symm h)))
      have n2 : ¬ Gamma0 N x (cneg y) := fun h => hg (Int.dvd_antisymm (by omega) (by omega)
        (gcd_eq_of_gamma0 (y := cneg y) h) (gcd_eq_of_gamma0 (x := cneg y) (Gamma0.symm h)))
      refine ⟨false, rfl, ?_⟩
      unfold CEq
      split_ifs
      · rw [gamma0pm_iff]; simpa using ⟨n1, n2⟩
      · simpa using n1

/-! ### the lists -/

/-- the cusps of the list are pairwise inequivalent -/
structure ListOK (pf N : ℤ) (L : List R) : Prop where
  cusp : ∀ c ∈ L, IsCusp c
  ineq : L.Pairwise fun c d => ¬ CEq pf N c d

theorem cuspFind_spec {N : ℤ} (hN : 0 < N) {M : Moddata} (hM : ModOK N M) (pf : ℤ) {c : R}
    (hc : IsCusp c) (L : List R) (hL : ∀ d ∈ L, IsCusp d) (i : ℕ) :
    (cuspFind M pf c i L = some none ∧ ∀ d ∈ L, ¬ CEq pf N c d) ∨
    ∃ m d, cuspFind M pf c i L = some (some (i + m)) ∧ L[m]? = some d ∧ CEq pf N c d := by
  induction L generalizing i with
  | nil => exact Or.inl ⟨rfl, by simp⟩
  | cons d L ih =>
    obtain ⟨b, b1, b2⟩ := cuspeq_spec hN hM hc (hL d List.mem_cons_self) pf
    cases b with
    | true => exact Or.inr ⟨0, d, by simp [cuspFind, b1], rfl, b2.1 rfl⟩
    | false =>
      have hn : ¬ CEq pf N c d := fun h => by simpa using b2.2 h
      rcases ih (fun x hx => hL x (List.mem_cons_of_mem _ hx)) (i + 1) with ⟨h1, h2⟩ | ⟨m, x, h1, h2, h3⟩
      · refine Or.inl ⟨by simp [cuspFind, b1, h1], ?_⟩
        intro x hx
        rcases List.mem_cons.1 hx with rfl | hx
        · exact hn
        · exact h2 x hx
      · exact Or.inr ⟨m + 1, x, by simp only [cuspFind, b1, h1]; congr 2; omega, by simpa using h2, h3⟩

theorem listOK_concat {pf N : ℤ} {L : List R} (hL : ListOK pf N L) {c : R} (hc : IsCusp c)
    (h : ∀ d ∈ L, ¬ CEq pf N c d) : ListOK pf N (L ++ [c]) := by
  constructor
  · intro x hx
    rcases List.mem_append.1 hx with hx | hx
    · exact hL.cusp x hx
    · rw [List.mem_singleton] at hx; exact hx ▸ hc
  · rw [List.pairwise_append]
    refine ⟨hL.ineq, List.pairwise_singleton _ _, ?_⟩
    intro a ha b hb hab
    rw [List.mem_singleton] at hb
    subst hb
    exact h a ha (CEq.symm hab)

theorem ineq_inj {pf N : ℤ} {L : List R} (hL : ListOK pf N L) {m m' : ℕ} {d d' : R}
    (h : L[m]? = some d) (h' : L[m']? = some d') (he : CEq pf N d d') : m = m' := by
  rw [List.getElem?_eq_some_iff] at h h'
  obtain ⟨a, rfl⟩ := h
  obtain ⟨b, rfl⟩ := h'
  have hp := List.pairwise_iff_getElem.1 hL.ineq
  rcases lt_trichotomy m m' with hlt | heq | hgt
  · exact absurd he (hp m m' a b hlt)
  · exact heq
  · exact absurd (CEq.symm he) (hp m' m b a hgt)

/-- a history of calls, when each call keeps an invariant and establishes a relation between the
cusp and its index which the later calls keep -/
theorem run_spec {f : List R → R → Option (List R × ℤ)} {I : List R → Prop}
    {Q : List R → R → ℤ → Prop} (hmono : ∀ L L' c j, L <+: L' → Q L c j → Q L' c j)
    (hstep : ∀ L c, I L → IsCusp c → ∃ L' j, f L c = some (L', j) ∧ I L' ∧ L <+: L' ∧ Q L' c j)
    (cs : List R) (hcs : ∀ c ∈ cs, IsCusp c) (L : List R) (hL : I L) :
    ∃ L' js, cuspRun f L cs = some (L', js) ∧ I L' ∧ L <+: L' ∧
      List.Forall₂ (fun c j => Q L' c j) cs js := by
  induction cs generalizing L with
  | nil => exact ⟨L, [], rfl, hL, List.prefix_rfl, List.Forall₂.nil⟩
  | cons c cs ih =>
    obtain ⟨L1, j, h1, h2, h3, h4⟩ := hstep L c hL (hcs c List.mem_cons_self)
    obtain ⟨L', js, g1, g2, g3, g4⟩ := ih (fun x hx => hcs x (List.mem_cons_of_mem _ hx)) L1 h2
    exact ⟨L', j :: js, by simp [cuspRun, h1, g1], g2, h3.trans g3,
      List.Forall₂.cons (hmono _ _ _ _ g3 h4) g4⟩

theorem prefix_getElem? {α : Type*} {L L' : List α} (h : L <+: L') {m : ℕ} {d : α}
    (hm : L[m]? = some d) : L'[m]? = some d := by
  obtain ⟨t, rfl⟩ := h
  exact getElem?_append_of_some hm t

/-- the index of a cusp in the list of `index` -/
def Q0 (pf N : ℤ) (L : List R) (c : R) (j : ℤ) : Prop :=
  ∃ (m : ℕ) (d : R), j = m + 1 ∧ L[m]? = some d ∧ CEq pf N c d

theorem CEq.refl (pf N : ℤ) (x : R) : CEq pf N x x := by
  unfold CEq
  split_ifs
  · exact gamma0pm_iff.2 (Or.inl (Gamma0.refl N x))
  · exact Gamma0.refl N x

theorem cuspIndex_spec {N : ℤ} (hN : 0 < N) {M : Moddata} (hM : ModOK N M) (pf : ℤ) (L : List R)
    (c : R) (hL : ListOK pf N L) (hc : IsCusp c) :
    ∃ L' j, cuspIndex M pf L c = some (L', j) ∧ ListOK pf N L' ∧ L <+: L' ∧ Q0 pf N L' c j := by
  rcases cuspFind_spec hN hM pf hc L hL.cusp 0 with ⟨h1, h2⟩ | ⟨m, d, h1, h2, h3⟩
  · exact ⟨_, _, by simp only [cuspIndex, h1], listOK_concat hL hc h2, List.prefix_append _ _,
      L.length, c, rfl, by simp, CEq.refl pf N c⟩
  · exact ⟨L, 1 + (m : ℤ), by simp [cuspIndex, h1], hL, List.prefix_rfl, m, d, by ring, h2, h3⟩

theorem forall₂_get {α β : Type*} {P : α → β → Prop} {l : List α} {l' : List β}
    (h : List.Forall₂ P l l') {i : ℕ} {a : α} {b : β} (ha : l[i]? = some a) (hb : l'[i]? = some b) :
    P a b := by
  rw [List.getElem?_eq_some_iff] at ha hb
  obtain ⟨x, rfl⟩ := ha
  obtain ⟨y, rfl⟩ := hb
  exact (List.forall₂_iff_get.1 h).2 i x y

/-! ### the lists for the minus space -/

/-- the list of `index_1`: classes with `[c] ≠ [-c]`, one of each pair -/
structure ListOK1 (N : ℤ) (L : List R) : Prop where
  cusp : ∀ c ∈ L, IsCusp c
  self : ∀ c ∈ L, ¬ Gamma0 N c (cneg c)
  ineq : ListOK 1 N L

theorem ceq_zero {N : ℤ} {x y : R} : CEq 0 N x y ↔ Gamma0 N x y := by
  rw [CEq, if_neg (by norm_num)]

theorem ceq_one {N : ℤ} {x y : R} : CEq 1 N x y ↔ Gamma0 N x y ∨ Gamma0 N x (cneg y) := by
  rw [CEq, if_pos rfl, gamma0pm_iff]

/-- the index of a cusp in the list of `index_1` -/
def Q1 (N : ℤ) (L : List R) (c : R) (j : ℤ) : Prop :=
  (j = 0 ∧ Gamma0 N c (cneg c)) ∨ (¬ Gamma0 N c (cneg c) ∧ ∃ (m : ℕ) (d : R), L[m]? = some d ∧
    ((j = m + 1 ∧ Gamma0 N c d) ∨ (j = -(m + 1) ∧ Gamma0 N (cneg c) d)))

theorem cuspFind1_spec {N : ℤ} (hN : 0 < N) {M : Moddata} (hM : ModOK N M) {c : R}
    (hc : IsCusp c) (L : List R) (hL : ∀ d ∈ L, IsCusp d) (i : ℕ) :
    (cuspFind1 M c i L = some 0 ∧ ∀ d ∈ L, ¬ CEq 1 N c d) ∨
    ∃ (m : ℕ) (d : R) (j : ℤ), cuspFind1 M c i L = some j ∧ L[m]? = some d ∧
      ((j = i + m + 1 ∧ Gamma0 N c d) ∨ (j = -(i + m + 1) ∧ Gamma0 N (cneg c) d)) := by
  induction L generalizing i with
  | nil => exact Or.inl ⟨rfl, by simp⟩
  | cons d L ih =>
    obtain ⟨b, b1, b2⟩ := cuspeq_spec hN hM hc (hL d List.mem_cons_self) 0
    obtain ⟨b', b1', b2'⟩ := cuspeq_spec hN hM (IsCusp.neg hc) (hL d List.mem_cons_self) 0
    rw [ceq_zero] at b2 b2'
    cases b with
    | true => exact Or.inr ⟨0, d, (i : ℤ) + 1, by simp only [cuspFind1, b1], rfl, Or.inl ⟨by simp, b2.1 rfl⟩⟩
    | false =>
      have hn : ¬ Gamma0 N c d := fun h => by simpa using b2.2 h
      cases b' with
      | true =>
        exact Or.inr ⟨0, d, -((i : ℤ) + 1), by simp only [cuspFind1, b1, neg_eq hc, b1'], rfl,
          Or.inr ⟨by simp, b2'.1 rfl⟩⟩
      | false =>
        have hn' : ¬ Gamma0 N (cneg c) d := fun h => by simpa using b2'.2 h
        rcases ih (fun x hx => hL x (List.mem_cons_of_mem _ hx)) (i + 1) with
          ⟨h1, h2⟩ | ⟨m, x, j, h1, h2, h3⟩
        · refine Or.inl ⟨by simp only [cuspFind1, b1, neg_eq hc, b1', h1], ?_⟩
          intro x hx
          rcases List.mem_cons.1 hx with rfl | hx
          · rw [ceq_one]
            rintro (h | h)
            · exact hn h
            · have := Gamma0.neg h
              rw [cneg_cneg] at this
              exact hn' this
          · exact h2 x hx
        · refine Or.inr ⟨m + 1, x, j, by simp only [cuspFind1, b1, neg_eq hc, b1', h1],
            by simpa using h2, ?_⟩
          rcases h3 with ⟨h3, h4⟩ | ⟨h3, h4⟩
          · exact Or.inl ⟨by rw [h3]; push_cast; ring, h4⟩
          · exact Or.inr ⟨by rw [h3]; push_cast; ring, h4⟩

theorem cuspIndex1_spec {N : ℤ} (hN : 0 < N) {M : Moddata} (hM : ModOK N M) (L : List R)
    (c : R) (hL : ListOK1 N L) (hc : IsCusp c) :
    ∃ L' j, cuspIndex1 M L c = some (L', j) ∧ ListOK1 N L' ∧ L <+: L' ∧ Q1 N L' c j := by
  obtain ⟨b, b1, b2⟩ := cuspeq_spec hN hM hc (IsCusp.neg hc) 0
  rw [ceq_zero] at b2
  cases b with
  | true => exact ⟨_, _, by simp only [cuspIndex1, neg_eq hc, b1], hL, List.prefix_rfl,
      Or.inl ⟨rfl, b2.1 rfl⟩⟩
  | false =>
    have hn : ¬ Gamma0 N c (cneg c) := fun h => by simpa using b2.2 h
    rcases cuspFind1_spec hN hM hc L hL.cusp 0 with ⟨h1, h2⟩ | ⟨m, d, j, h1, h2, h3⟩
    · refine ⟨L ++ [c], (L.length : ℤ) + 1, by simp [cuspIndex1, neg_eq hc, b1, h1], ?_,
        List.prefix_append _ _, Or.inr ⟨hn, L.length, c, by simp, Or.inl ⟨rfl, Gamma0.refl N c⟩⟩⟩
      have hk := listOK_concat hL.ineq hc h2
      refine ⟨hk.cusp, ?_, hk⟩
      intro x hx
      rcases List.mem_append.1 hx with hx | hx
      · exact hL.self x hx
      · rw [List.mem_singleton] at hx; exact hx ▸ hn
    · have hj : j ≠ 0 := by rcases h3 with h | h <;> omega
      refine ⟨L, j, by simp [cuspIndex1, neg_eq hc, b1, h1, hj], hL, List.prefix_rfl,
        Or.inr ⟨hn, m, d, h2, ?_⟩⟩
      rcases h3 with ⟨h3, h4⟩ | ⟨h3, h4⟩
      · exact Or.inl ⟨by rw [h3]; push_cast; ring, h4⟩
      · exact Or.inr ⟨by rw [h3]; push_cast; ring, h4⟩

/-- the list of `index_2` -/
structure ListOK2 (N : ℤ) (L : List R) : Prop where
  self : ∀ c ∈ L, Gamma0 N c (cneg c)
  ineq : ListOK 0 N L

/-- the index of a cusp in the list of `index_2` -/
def Q2 (N : ℤ) (L : List R) (c : R) (j : ℤ) : Prop :=
  (j = 0 ∧ ¬ Gamma0 N c (cneg c)) ∨ (Gamma0 N c (cneg c) ∧ Q0 0 N L c j)

theorem cuspIndex2_spec {N : ℤ} (hN : 0 < N) {M : Moddata} (hM : ModOK N M) (L : List R)
    (c : R) (hL : ListOK2 N L) (hc : IsCusp c) :
    ∃ L' j, cuspIndex2 M L c = some (L', j) ∧ ListOK2 N L' ∧ L <+: L' ∧ Q2 N L' c j := by
  obtain ⟨b, b1, b2⟩ := cuspeq_spec hN hM hc (IsCusp.neg hc) 0
  rw [ceq_zero] at b2
  cases b with
  | false => exact ⟨_, _, by simp only [cuspIndex2, neg_eq hc, b1], hL, List.prefix_rfl,
      Or.inl ⟨rfl, fun h => by simpa using b2.2 h⟩⟩
  | true =>
    have hn := b2.1 rfl
    rcases cuspFind_spec hN hM 0 hc L hL.ineq.cusp 0 with ⟨h1, h2⟩ | ⟨m, d, h1, h2, h3⟩
    · refine ⟨L ++ [c], (L.length : ℤ) + 1, by simp [cuspIndex2, neg_eq hc, b1, h1], ⟨?_,
        listOK_concat hL.ineq hc h2⟩, List.prefix_append _ _, Or.inr ⟨hn, L.length, c, rfl, by simp,
          CEq.refl 0 N c⟩⟩
      intro x hx
      rcases List.mem_append.1 hx with hx | hx
      · exact hL.self x hx
      · rw [List.mem_singleton] at hx; exact hx ▸ hn
    · exact ⟨L, (m : ℤ) + 1, by simp [cuspIndex2, neg_eq hc, b1, h1], hL, List.prefix_rfl,
        Or.inr ⟨hn, m, d, rfl, h2, h3⟩⟩

namespace Props

section

variable {N : ℤ} (hN : 0 < N) {ps : List ℤ} (hps : Spec.IsPrimeDivisorList N ps)
  {M : Moddata} (hM : Moddata.make N ps = some M)

include hN hps hM

theorem modOK_of_make : ModOK N M := by
  obtain ⟨M', h1, h2⟩ := make_spec hN hps
  rw [hM, Option.some.injEq] at h1
  exact h1 ▸ h2

/-- `cuspeq` is exact: with `plusflag ≠ 1` it decides `Γ₀(N)`-equivalence -/
theorem C41_cuspeq {x y : R} (hx : IsCusp x) (hy : IsCusp y) {pf : ℤ} (hpf : pf ≠ 1) :
    ∃ b, cuspeq M x y pf = some b ∧ (b = true ↔ Gamma0 N x y) := by
  have := cuspeq_spec hN (modOK_of_make hN hps hM) hx hy pf
  simpa [CEq, hpf] using this

/-- with `plusflag = 1` it decides equivalence under the group containing `diag(-1,1)` as well -/
theorem C41_cuspeq_plus {x y : R} (hx : IsCusp x) (hy : IsCusp y) :
    ∃ b, cuspeq M x y 1 = some b ∧ (b = true ↔ Gamma0pm N x y) := by
  have := cuspeq_spec hN (modOK_of_make hN hps hM) hx hy 1
  simpa [CEq] using this

/-- any history of calls of `index`: the list holds pairwise inequivalent cusps, every index is in
range, and two calls return the same index if and only if their cusps are equivalent -/
theorem C41_index (pf : ℤ) (cs : List R) (hcs : ∀ c ∈ cs, IsCusp c) :
    ∃ L js, cuspRun (cuspIndex M pf) [] cs = some (L, js) ∧ js.length = cs.length ∧
      (L.Pairwise fun c d => ¬ CEq pf N c d) ∧
      (∀ j ∈ js, 1 ≤ j ∧ j ≤ L.length) ∧
      ∀ (i i' : ℕ) (c c' : R) (j j' : ℤ), cs[i]? = some c → cs[i']? = some c' →
        js[i]? = some j → js[i']? = some j' → (j = j' ↔ CEq pf N c c') := by
  obtain ⟨L, js, h1, h2, -, h4⟩ := run_spec (f := cuspIndex M pf) (I := ListOK pf N)
    (Q := Q0 pf N)
    (fun L L' c j hp ⟨m, d, q1, q2, q3⟩ => ⟨m, d, q1, prefix_getElem? hp q2, q3⟩)
    (cuspIndex_spec hN (modOK_of_make hN hps hM) pf) cs hcs [] ⟨by simp, by simp⟩
  refine ⟨L, js, h1, h4.length_eq.symm, h2.ineq, ?_, ?_⟩
  · intro j hj
    obtain ⟨i, hi, rfl⟩ := List.getElem_of_mem hj
    have hi' : i < cs.length := by rw [h4.length_eq]; exact hi
    obtain ⟨m, d, q1, q2, q3⟩ := forall₂_get h4 (List.getElem?_eq_getElem hi')
      (List.getElem?_eq_getElem hi)
    have := (List.getElem?_eq_some_iff.1 q2).1
    omega
  · intro i i' c c' j j' a b a' b'
    obtain ⟨m, d, q1, q2, q3⟩ := forall₂_get h4 a a'
    obtain ⟨m', d', q1', q2', q3'⟩ := forall₂_get h4 b b'
    constructor
    · intro h
      have : m = m' := by omega
      subst this
      rw [q2, Option.some.injEq] at q2'
      subst q2'
      exact CEq.trans q3 (CEq.symm q3')
    · intro h
      have := ineq_inj h2 q2 q2' (CEq.trans (CEq.symm q3) (CEq.trans h q3'))
      omega

/-- any history of calls of `index_1`: the index is `0` exactly for the cusps with `[c] = [-c]`, and
among the others two calls return the same index exactly for `[c] = [c']` and opposite indices
exactly for `[c] = [-c']` -/
theorem C41_index_1 (cs : List R) (hcs : ∀ c ∈ cs, IsCusp c) :
    ∃ L js, cuspRun (cuspIndex1 M) [] cs = some (L, js) ∧ js.length = cs.length ∧
      (L.Pairwise fun c d => ¬ Gamma0pm N c d) ∧
      (∀ j ∈ js, -(L.length : ℤ) ≤ j ∧ j ≤ L.length) ∧
      (∀ (i : ℕ) (c : R) (j : ℤ), cs[i]? = some c → js[i]? = some j →
        (j = 0 ↔ Gamma0 N c ⟨-c.n, c.d⟩)) ∧
      ∀ (i i' : ℕ) (c c' : R) (j j' : ℤ), cs[i]? = some c → cs[i']? = some c' →
        js[i]? = some j → js[i']? = some j' → j ≠ 0 →
        (j = j' ↔ Gamma0 N c c') ∧ (j = -j' ↔ Gamma0 N c ⟨-c'.n, c'.d⟩) := by
  obtain ⟨L, js, h1, h2, -, h4⟩ := run_spec (f := cuspIndex1 M) (I := ListOK1 N)
    (Q := Q1 N)
    (by
      rintro L L' c j hp (h | ⟨h, m, d, q2, q3⟩)
      · exact Or.inl h
      · exact Or.inr ⟨h, m, d, prefix_getElem? hp q2, q3⟩)
    (cuspIndex1_spec hN (modOK_of_make hN hps hM)) cs hcs [] ⟨by simp, by simp, by simp, by simp⟩
  have hz : ∀ (i : ℕ) (c : R) (j : ℤ), cs[i]? = some c → js[i]? = some j →
        (j = 0 ↔ Gamma0 N c (cneg c)) := by
    intro i c j a a'
    rcases forall₂_get h4 a a' with ⟨q1, q2⟩ | ⟨q1, m, d, q2, q3⟩
    · simp [q1, q2]
    · have : j ≠ 0 := by rcases q3 with h | h <;> omega
      simp [q1, this]
  -- the sign of the index and the cusp it stands for
  have hsgn : ∀ (i : ℕ) (c : R) (j : ℤ), cs[i]? = some c → js[i]? = some j → j ≠ 0 →
      ∃ (m : ℕ) (d : R), L[m]? = some d ∧ ¬ Gamma0 N d (cneg d) ∧
        ((j = m + 1 ∧ Gamma0 N c d) ∨ (j = -(m + 1) ∧ Gamma0 N c (cneg d))) := by
    intro i c j a a' hj
    rcases forall₂_get h4 a a' with ⟨q1, q2⟩ | ⟨q1, m, d, q2, q3⟩
    · exact absurd q1 hj
    · refine ⟨m, d, q2, h2.self d (List.mem_of_getElem? q2), ?_⟩
      rcases q3 with h | ⟨h, h'⟩
      · exact Or.inl h
      · have := Gamma0.neg h'
        rw [cneg_cneg] at this
        exact Or.inr ⟨h, this⟩
  have hnn : ∀ {x y : R}, Gamma0 N x (cneg y) → Gamma0 N (cneg x) y := by
    intro x y h
    have := Gamma0.neg h
    rwa [cneg_cneg] at this
  refine ⟨L, js, h1, h4.length_eq.symm, ?_, ?_, hz, ?_⟩
  · have := h2.ineq.ineq
    simpa [CEq] using this
  · intro j hj
    obtain ⟨i, hi, rfl⟩ := List.getElem_of_mem hj
    have hi' : i < cs.length := by rw [h4.length_eq]; exact hi
    rcases forall₂_get h4 (List.getElem?_eq_getElem hi') (List.getElem?_eq_getElem hi) with
      ⟨q1, q2⟩ | ⟨q1, m, d, q2, q3⟩
    · omega
    · have := (List.getElem?_eq_some_iff.1 q2).1
      rcases q3 with h | h <;> omega
  · intro i i' c c' j j' a b a' b' hj
    obtain ⟨m, d, q1, q2, q3⟩ := hsgn i c j a a' hj
    have hc := hz i c j a a'
    have hc' := hz i' c' j' b b'
    have hj0 : ¬ Gamma0 N c (cneg c) := fun h => hj (hc.2 h)
    change (j = j' ↔ Gamma0 N c c') ∧ (j = -j' ↔ Gamma0 N c (cneg c'))
    by_cases hj' : j' = 0
    · have hs := hc'.1 hj'
      constructor
      · constructor
        · intro h; omega
        · intro h
          exact absurd (Gamma0.trans h (Gamma0.trans hs (Gamma0.neg (Gamma0.symm h)))) hj0
      · constructor
        · intro h; omega
        · intro h
          have e1 := Gamma0.trans h (Gamma0.symm hs)
          exact absurd (Gamma0.trans e1 (Gamma0.trans hs (Gamma0.neg (Gamma0.symm e1)))) hj0
    · obtain ⟨m', d', q1', q2', q3'⟩ := hsgn i' c' j' b b' hj'
      have huniq : ∀ {s : Prop}, (Gamma0 N d d' ∨ Gamma0 N d (cneg d')) → m = m' := by
        intro _ h
        exact ineq_inj h2.ineq q1 q1' (ceq_one.2 h)
      have hmm : m = m' → d = d' := by
        intro h
        subst h
        rw [q1, Option.some.injEq] at q1'
        exact q1'
      rcases q3 with ⟨j1, e⟩ | ⟨j1, e⟩ <;> rcases q3' with ⟨j1', e'⟩ | ⟨j1', e'⟩
      · constructor
        · constructor
          · intro h
            have := hmm (by omega)
            subst this
            exact Gamma0.trans e (Gamma0.symm e')
          · intro h
            have := huniq (s := True) (Or.inl (Gamma0.trans (Gamma0.symm e) (Gamma0.trans h e')))
            omega
        · constructor
          · intro h; omega
          · intro h
            have f := Gamma0.trans (Gamma0.symm e) (Gamma0.trans h (Gamma0.neg e'))
            have := hmm (huniq (s := True) (Or.inr f))
            subst this
            exact absurd f q2
      · constructor
        · constructor
          · intro h; omega
          · intro h
            have f := Gamma0.trans (Gamma0.symm e) (Gamma0.trans h e')
            have := hmm (huniq (s := True) (Or.inr f))
            subst this
            exact absurd f q2
        · have e'' := hnn e'
          constructor
          · intro h
            have := hmm (by omega)
            subst this
            exact Gamma0.trans e (Gamma0.symm e'')
          · intro h
            have := huniq (s := True) (Or.inl (Gamma0.trans (Gamma0.symm e) (Gamma0.trans h e'')))
            omega
      · constructor
        · constructor
          · intro h; omega
          · intro h
            have f := Gamma0.trans (Gamma0.symm e) (Gamma0.trans h e')
            have f' := hnn (Gamma0.symm f)
            have f'' := Gamma0.symm f'
            have := hmm (huniq (s := True) (Or.inr f''))
            subst this
            exact absurd f'' q2
        · have e'' := Gamma0.neg e'
          constructor
          · intro h
            have := hmm (by omega)
            subst this
            exact Gamma0.trans e (Gamma0.symm e'')
          · intro h
            have f := Gamma0.neg (Gamma0.trans (Gamma0.symm e) (Gamma0.trans h e''))
            rw [cneg_cneg, cneg_cneg] at f
            have := huniq (s := True) (Or.inl f)
            omega
      · constructor
        · constructor
          · intro h
            have := hmm (by omega)
            subst this
            exact Gamma0.trans e (Gamma0.symm e')
          · intro h
            have f := Gamma0.neg (Gamma0.trans (Gamma0.symm e) (Gamma0.trans h e'))
            rw [cneg_cneg, cneg_cneg] at f
            have := huniq (s := True) (Or.inl f)
            omega
        · constructor
          · intro h; omega
          · intro h
            have f := Gamma0.trans (Gamma0.symm e) (Gamma0.trans h (hnn e' |> Gamma0.trans (Gamma0.refl N _)))
            have f' := Gamma0.symm (hnn (Gamma0.symm f))
            have := hmm (huniq (s := True) (Or.inr f'))
            subst this
            exact absurd f' q2

/-- any history of calls of `index_2`: the index is `0` exactly for the cusps with `[c] ≠ [-c]`, and
among the others two calls return the same index exactly when the cusps are equivalent -/
theorem C41_index_2 (cs : List R) (hcs : ∀ c ∈ cs, IsCusp c) :
    ∃ L js, cuspRun (cuspIndex2 M) [] cs = some (L, js) ∧ js.length = cs.length ∧
      (L.Pairwise fun c d => ¬ Gamma0 N c d) ∧
      (∀ j ∈ js, 0 ≤ j ∧ j ≤ L.length) ∧
      (∀ (i : ℕ) (c : R) (j : ℤ), cs[i]? = some c → js[i]? = some j →
        (j = 0 ↔ ¬ Gamma0 N c ⟨-c.n, c.d⟩)) ∧
      ∀ (i i' : ℕ) (c c' : R) (j j' : ℤ), cs[i]? = some c → cs[i']? = some c' →
        js[i]? = some j → js[i']? = some j' → j ≠ 0 → (j = j' ↔ Gamma0 N c c') := by
  obtain ⟨L, js, h1, h2, -, h4⟩ := run_spec (f := cuspIndex2 M) (I := ListOK2 N)
    (Q := Q2 N)
    (by
      rintro L L' c j hp (h | ⟨h, m, d, q1, q2, q3⟩)
      · exact Or.inl h
      · exact Or.inr ⟨h, m, d, q1, prefix_getElem? hp q2, q3⟩)
    (cuspIndex2_spec hN (modOK_of_make hN hps hM)) cs hcs [] ⟨by simp, by simp, by simp⟩
  refine ⟨L, js, h1, h4.length_eq.symm, ?_, ?_, ?_, ?_⟩
  · have := h2.ineq.ineq
    simpa [CEq] using this
  · intro j hj
    obtain ⟨i, hi, rfl⟩ := List.getElem_of_mem hj
    have hi' : i < cs.length := by rw [h4.length_eq]; exact hi
    rcases forall₂_get h4 (List.getElem?_eq_getElem hi') (List.getElem?_eq_getElem hi) with
      ⟨q1, q2⟩ | ⟨q1, m, d, q2, q3, q4⟩
    · omega
    · have := (List.getElem?_eq_some_iff.1 q3).1
      omega
  · intro i c j a a'
    change j = 0 ↔ ¬ Gamma0 N c (cneg c)
    rcases forall₂_get h4 a a' with ⟨q1, q2⟩ | ⟨q1, m, d, q2, q3⟩
    · simp [q1, q2]
    · have : j ≠ 0 := by omega
      simp [q1, this]
  · intro i i' c c' j j' a b a' b' hj
    rcases forall₂_get h4 a a' with ⟨q1, q2⟩ | ⟨q0, m, d, q1, q2, q3⟩
    · exact absurd q1 hj
    · rw [ceq_zero] at q3
      rcases forall₂_get h4 b b' with ⟨q1', q2'⟩ | ⟨q0', m', d', q1', q2', q3'⟩
      · constructor
        · intro h; omega
        · intro h
          exact absurd (Gamma0.trans (Gamma0.symm h) (Gamma0.trans q0 (Gamma0.neg h))) q2'
      · rw [ceq_zero] at q3'
        constructor
        · intro h
          have : m = m' := by omega
          subst this
          rw [q2, Option.some.injEq] at q2'
          subst q2'
          exact Gamma0.trans q3 (Gamma0.symm q3')
        · intro h
          have := ineq_inj h2.ineq q2 q2'
            (ceq_zero.2 (Gamma0.trans (Gamma0.symm q3) (Gamma0.trans h q3')))
          omega

end

/-- two cusps of level 11 that are equivalent: `1/3` and `2/5`, and infinity is equivalent to
`1/11` -/
example : IsCusp ⟨1, 3⟩ ∧ IsCusp ⟨2, 5⟩ ∧ IsCusp ⟨1, 0⟩ ∧ Gamma0 11 ⟨1, 0⟩ ⟨1, 11⟩ ∧
    Gamma0 11 ⟨1, 3⟩ ⟨2, 5⟩ :=
  ⟨⟨⟨1, 0, by norm_num⟩, by norm_num⟩, ⟨⟨-2, 1, by norm_num⟩, by norm_num⟩,
    ⟨⟨1, 0, by norm_num⟩, by norm_num⟩,
    ⟨1, 0, 11, 1, by norm_num, by norm_num, Or.inl ⟨by norm_num, by norm_num⟩⟩,
    ⟨5, -1, 11, -2, by norm_num, by norm_num, Or.inl ⟨by norm_num, by norm_num⟩⟩⟩

end Props

end Eclib.Symb
