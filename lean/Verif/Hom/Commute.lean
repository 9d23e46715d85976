import Verif.Hom.Heil
import Mathlib.Data.Matrix.Mul

/-!
# C80: the operators commute
-/

set_option linter.unusedSectionVars false

namespace Eclib.Hom

open Ratl (R)
open Symb (Symbdata)
open Symb.SymbSpec Symb.CuspSpec ManinSpec
open Svec (T SV)
open Smat.Props (SRep)
open Elim (RrefOk SparseOk)

namespace ManinSpec

/-- the operators on modular symbols of level `N` -/
inductive IsOp {K : Type*} [Field K] (N : ℤ) :
    ((OnePoint ℚ → OnePoint ℚ → K) → OnePoint ℚ → OnePoint ℚ → K) → Prop
  /-- Hecke -/
  | hecke {p : ℕ} (hp : p.Prime) (hpN : ¬(p : ℤ) ∣ N) : IsOp N (heckeT p)
  /-- Atkin–Lehner -/
  | al {Q a b c d : ℤ} (hQ : Q ≠ 0) (hQN : Q ∣ N) (h : IsAL N Q a b c d) : IsOp N (slash a b c d)
  /-- complex conjugation -/
  | conj : IsOp N (slash (-1) 0 0 1)

end ManinSpec

variable {K : Type*} [Field K] {N pf : ℤ} {f : OnePoint ℚ → OnePoint ℚ → K}

/-! ### lines -/

section lines

variable {p : ℕ} [hp : Fact p.Prime]

/-- a matrix of determinant `0` modulo `p` has its rows in a line -/
theorem exists_line {a b c d : ℤ} (h : (p : ℤ) ∣ a * d - b * c) :
    ∃ o : Option (ZMod p), (a : ZMod p) * (line o).2 - b * (line o).1 = 0 ∧ (c : ZMod p) * (line o).2 - d * (line o).1 = 0 := by
  have h0 : (a : ZMod p) * d - b * c = 0 := by
    have := (ZMod.intCast_zmod_eq_zero_iff_dvd (a * d - b * c) p).2 h
    push_cast at this
    exact this
  by_cases h1 : ((a : ZMod p), (b : ZMod p)) = 0
  · rw [Prod.ext_iff] at h1
    simp only [Prod.fst_zero, Prod.snd_zero] at h1
    by_cases h2 : ((c : ZMod p), (d : ZMod p)) = 0
    · rw [Prod.ext_iff] at h2
      simp only [Prod.fst_zero, Prod.snd_zero] at h2
      exact ⟨none, by rw [h1.1, h1.2]; ring, by rw [h2.1, h2.2]; ring⟩
    · exact ⟨_, by rw [h1.1, h1.2]; ring, lineOf_spec h2 _ _ (by ring)⟩
  · exact ⟨_, lineOf_spec h1 _ _ (by ring), lineOf_spec h1 _ _ (by linear_combination -h0)⟩

theorem rep_line (o : Option (ZMod p)) : ((rep o).1 : ZMod p) * (line o).2 - (rep o).2.1 * (line o).1 = 0 ∧
    ((rep o).2.2.1 : ZMod p) * (line o).2 - (rep o).2.2.2 * (line o).1 = 0 := by
  cases o <;> simp [rep, line]

/-- both lines contain the same non-zero row -/
theorem line_unique {a b : ZMod p} (hab : a ≠ 0 ∨ b ≠ 0) {o o' : Option (ZMod p)} (h : a * (line o).2 - b * (line o).1 = 0)
    (h' : a * (line o').2 - b * (line o').1 = 0) : o = o' := by
  apply line_eq
  rcases hab with h0 | h0
  · exact (mul_eq_zero.1 (show a * _ = 0 by linear_combination (line o).1 * h' - (line o').1 * h)).resolve_left h0
  · exact (mul_eq_zero.1 (show b * _ = 0 by linear_combination (line o).2 * h' - (line o').2 * h)).resolve_left h0

theorem rep_low (o : Option (ZMod p)) : (rep o).2.2.1 = 0 := by cases o <;> rfl

theorem slash_rep (hf : IsModSym N pf f) (hpN : IsCoprime (p : ℤ) N) {a b c d : ℤ} {o : Option (ZMod p)}
    (h1 : (a : ZMod p) * (line o).2 - b * (line o).1 = 0) (h2 : (c : ZMod p) * (line o).2 - d * (line o).1 = 0) (hc : N ∣ c)
    (hd : a * d - b * c = p) (α β : OnePoint ℚ) :
    slash a b c d f α β = slash (rep o).1 (rep o).2.1 (rep o).2.2.1 (rep o).2.2.2 f α β := by
  have hp0 : (p : ℤ) ≠ 0 := by exact_mod_cast hp.out.ne_zero
  obtain ⟨x, y, z, w, hz, e0, e1, e2, e3, e4⟩ := divide h1 h2 hpN hc
  rw [e1, e2, e3, e4]
  exact hf.left (mul_right_cancel₀ hp0 (by rw [e0, hd, one_mul])) hz (by rw [rep_det]; exact hp0) α β

end lines

/-! ### Hecke operators commute -/

section two

variable {p r : ℕ} [hp : Fact p.Prime] [hr : Fact r.Prime]

theorem det_ne_of_ne (hne : p ≠ r) (o : Option (ZMod p)) :
    (((rep o).1 * (rep o).2.2.2 - (rep o).2.1 * (rep o).2.2.1 : ℤ) : ZMod r) ≠ 0 := by
  rw [rep_det]
  intro h
  have h1 := (ZMod.intCast_zmod_eq_zero_iff_dvd (p : ℤ) r).1 h
  have h2 : r ∣ p := by exact_mod_cast h1
  exact hne ((Nat.prime_dvd_prime_iff_eq hr.out hp.out).1 h2).symm

/-- `rep_r(s)·rep_p(o) = γ·rep_p(o')·rep_r(s')` with `γ` in `Γ₀(N)` -/
theorem swap (hne : p ≠ r) (hpN : IsCoprime (p : ℤ) N) (hrN : IsCoprime (r : ℤ) N) (o : Option (ZMod p)) (s : Option (ZMod r)) :
    ∃ o' : Option (ZMod p), o = perm (rep (perm (rep o).1 (rep o).2.1 (rep o).2.2.1 (rep o).2.2.2 s)).1
        (rep (perm (rep o).1 (rep o).2.1 (rep o).2.2.1 (rep o).2.2.2 s)).2.1
        (rep (perm (rep o).1 (rep o).2.1 (rep o).2.2.1 (rep o).2.2.2 s)).2.2.1
        (rep (perm (rep o).1 (rep o).2.1 (rep o).2.2.1 (rep o).2.2.2 s)).2.2.2 o' ∧
      ∀ f : OnePoint ℚ → OnePoint ℚ → K, IsModSym N pf f → ∀ α β,
        slash (rep o).1 (rep o).2.1 (rep o).2.2.1 (rep o).2.2.2 (slash (rep s).1 (rep s).2.1 (rep s).2.2.1 (rep s).2.2.2 f) α β =
          slash (rep (perm (rep o).1 (rep o).2.1 (rep o).2.2.1 (rep o).2.2.2 s)).1
            (rep (perm (rep o).1 (rep o).2.1 (rep o).2.2.1 (rep o).2.2.2 s)).2.1
            (rep (perm (rep o).1 (rep o).2.1 (rep o).2.2.1 (rep o).2.2.2 s)).2.2.1
            (rep (perm (rep o).1 (rep o).2.1 (rep o).2.2.1 (rep o).2.2.2 s)).2.2.2
            (slash (rep o').1 (rep o').2.1 (rep o').2.2.1 (rep o').2.2.2 f) α β := by
  have hp0 : (p : ℤ) ≠ 0 := by exact_mod_cast hp.out.ne_zero
  have hr0 : (r : ℤ) ≠ 0 := by exact_mod_cast hr.out.ne_zero
  obtain ⟨h1, h2⟩ := rep_mul s (det_ne_of_ne hne o)
  generalize hs' : perm (rep o).1 (rep o).2.1 (rep o).2.2.1 (rep o).2.2.2 s = s' at *
  obtain ⟨x, y, z, w, hz, e0, e1, e2, e3, e4⟩ := divide h1 h2 hrN
    (by rw [rep_low, rep_low]; simp)
  have hdet : x * w - y * z = p := mul_right_cancel₀ hr0 (by
    rw [e0]; linear_combination (rep_det o) * r + ((rep o).1 * (rep o).2.2.2 - (rep o).2.1 * (rep o).2.2.1) * rep_det s)
  obtain ⟨o', k1, k2⟩ := exists_line (p := p) (a := x) (b := y) (c := z) (d := w) (by rw [hdet])
  refine ⟨o', ?_, fun f hf α β => ?_⟩
  · -- the line of the product
    have hg := det_ne_of_ne (p := r) (r := p) hne.symm s'
    have hv := vmul_ne hg (line_ne o')
    have key : ∀ a b : ℤ, (a : ZMod p) * (line o').2 - b * (line o').1 = 0 →
        ((a * (rep s').1 + b * (rep s').2.2.1 : ℤ) : ZMod p) * (line (perm (rep s').1 (rep s').2.1 (rep s').2.2.1 (rep s').2.2.2 o')).2 -
          ((a * (rep s').2.1 + b * (rep s').2.2.2 : ℤ) : ZMod p) *
            (line (perm (rep s').1 (rep s').2.1 (rep s').2.2.1 (rep s').2.2.2 o')).1 = 0 := by
      intro a b h
      apply lineOf_spec hv
      simp only [vmul]
      push_cast
      linear_combination (((rep s').1 : ZMod p) * (rep s').2.2.2 - (rep s').2.1 * (rep s').2.2.1) * h
    have m1 := key x y k1
    have m2 := key z w k2
    rw [← e1, ← e2] at m1
    rw [← e3, ← e4] at m2
    obtain ⟨l1, l2⟩ := rep_line o
    have key2 : ∀ a b : ℤ, ((a * (rep o).1 + b * (rep o).2.2.1 : ℤ) : ZMod p) * (line o).2 -
        ((a * (rep o).2.1 + b * (rep o).2.2.2 : ℤ) : ZMod p) * (line o).1 = 0 := by
      intro a b
      push_cast
      linear_combination (a : ZMod p) * l1 + (b : ZMod p) * l2
    have hs := det_ne_of_ne (p := r) (r := p) hne.symm s
    push_cast at hs
    by_contra hcon
    have z1 : ∀ a b : ℤ, ((a * (rep o).1 + b * (rep o).2.2.1 : ℤ) : ZMod p) * (line (perm (rep s').1 (rep s').2.1 (rep s').2.2.1 (rep s').2.2.2 o')).2 -
        ((a * (rep o).2.1 + b * (rep o).2.2.2 : ℤ) : ZMod p) * (line (perm (rep s').1 (rep s').2.1 (rep s').2.2.1 (rep s').2.2.2 o')).1 = 0 →
        ((a * (rep o).1 + b * (rep o).2.2.1 : ℤ) : ZMod p) = 0 ∧ ((a * (rep o).2.1 + b * (rep o).2.2.2 : ℤ) : ZMod p) = 0 := by
      intro a b h
      by_contra hc
      rw [not_and_or] at hc
      exact hcon (line_unique hc (key2 a b) h)
    obtain ⟨a1, a2⟩ := z1 _ _ m1
    obtain ⟨a3, a4⟩ := z1 _ _ m2
    push_cast at a1 a2 a3 a4
    -- the rows of rep o would vanish
    have b1 : ((rep o).1 : ZMod p) = 0 := (mul_eq_zero.1 (show (((rep s).1 : ZMod p) * (rep s).2.2.2 - (rep s).2.1 * (rep s).2.2.1) * _ = 0 by
      linear_combination ((rep s).2.2.2 : ZMod p) * a1 - ((rep s).2.1 : ZMod p) * a3)).resolve_left hs
    have b4 : ((rep o).2.2.2 : ZMod p) = 0 := (mul_eq_zero.1 (show (((rep s).1 : ZMod p) * (rep s).2.2.2 - (rep s).2.1 * (rep s).2.2.1) * _ = 0 by
      linear_combination ((rep s).1 : ZMod p) * a4 - ((rep s).2.2.1 : ZMod p) * a2)).resolve_left hs
    cases o
    · simp [rep] at b4
    · simp [rep] at b1
  · have hr' : (rep s').1 * (rep s').2.2.2 - (rep s').2.1 * (rep s').2.2.1 ≠ 0 := by rw [rep_det]; exact hr0
    rw [slash_slash (by rw [rep_det]; exact hp0), e1, e2, e3, e4, ← slash_slash hr']
    unfold slash
    exact slash_rep hf hpN k1 k2 hz hdet _ _

theorem heckeT_comm (hf : IsModSym N pf f) (hne : p ≠ r) (hpN : IsCoprime (p : ℤ) N) (hrN : IsCoprime (r : ℤ) N) :
    heckeT p (heckeT r f) = heckeT r (heckeT p f) := by
  funext α β
  have exp : ∀ {p r : ℕ} [Fact p.Prime] [Fact r.Prime], heckeT p (heckeT r f) α β = ∑ x : Option (ZMod p) × Option (ZMod r),
      slash (rep x.1).1 (rep x.1).2.1 (rep x.1).2.2.1 (rep x.1).2.2.2
        (slash (rep x.2).1 (rep x.2).2.1 (rep x.2).2.2.1 (rep x.2).2.2.2 f) α β := by
    intro p r _ _
    rw [heckeT_eq, Fintype.sum_prod_type]
    refine Finset.sum_congr rfl fun o _ => ?_
    show heckeT r f _ _ = _
    rw [heckeT_eq]
    rfl
  rw [exp, exp]
  choose o' h1 h2 using fun x : Option (ZMod p) × Option (ZMod r) => swap (K := K) (pf := pf) hne hpN hrN x.1 x.2
  refine Fintype.sum_bijective (fun x => (perm (rep x.1).1 (rep x.1).2.1 (rep x.1).2.2.1 (rep x.1).2.2.2 x.2, o' x)) ?_ _ _
    fun x => h2 x f hf α β
  have hinj : Function.Injective fun x : Option (ZMod p) × Option (ZMod r) =>
      (perm (rep x.1).1 (rep x.1).2.1 (rep x.1).2.2.1 (rep x.1).2.2.2 x.2, o' x) := by
    intro x y hxy
    obtain ⟨e1, e2⟩ := Prod.mk.inj hxy
    have e3 : x.1 = y.1 := by rw [h1 x, h1 y, e1, e2]
    refine Prod.ext e3 ?_
    rw [e3] at e1
    exact (perm_bij (det_ne_of_ne hne y.1)).1 e1
  refine (Fintype.bijective_iff_injective_and_card _).2 ⟨hinj, ?_⟩
  rw [Fintype.card_prod, Fintype.card_prod, mul_comm]

end two

/-! ### Atkin–Lehner and conjugation -/

section mixed

variable {p : ℕ} [hp : Fact p.Prime]

theorem heckeT_al (hf : IsModSym N pf f) (hpN : IsCoprime (p : ℤ) N) {Q : ℤ} (hQ : Q ≠ 0) (hQN : Q ∣ N) {a b c d : ℤ}
    (h : IsAL N Q a b c d) : heckeT p (slash a b c d f) = slash a b c d (heckeT p f) := by
  funext α β
  have hp0 : (p : ℤ) ≠ 0 := by exact_mod_cast hp.out.ne_zero
  have hpQ : IsCoprime (p : ℤ) Q := hpN.of_isCoprime_of_dvd_right hQN
  have hg : ((a * d - b * c : ℤ) : ZMod p) ≠ 0 := by
    rw [h.2.2.2]
    intro h0
    exact (Prime.coprime_iff_not_dvd (Nat.prime_iff_prime_int.1 hp.out)).1 hpQ ((ZMod.intCast_zmod_eq_zero_iff_dvd Q p).1 h0)
  have hdet0 : a * d - b * c ≠ 0 := by rw [h.2.2.2]; exact hQ
  symm
  show heckeT p f _ _ = _
  rw [heckeT_eq, heckeT_eq]
  refine Fintype.sum_bijective _ (perm_bij hg) _ _ fun o => ?_
  obtain ⟨h1, h2⟩ := rep_mul o hg
  obtain ⟨x, y, z, w, hz, e0, e1, e2, e3, e4⟩ := divide h1 h2 hpN (by rw [rep_low]; simpa using h.2.1.mul_left _)
  have hxw : x * w - y * z = Q := mul_right_cancel₀ hp0 (by
    rw [e0]; linear_combination (a * d - b * c) * rep_det o + p * h.2.2.2)
  have hal : IsAL N Q x y z w := by
    obtain ⟨i1, i2, i3, i4⟩ := h
    have hQc := hQN.trans i2
    have hcop : ∀ o : Option (ZMod p), IsCoprime Q (rep o).1 ∧ IsCoprime Q (rep o).2.2.2 := by
      intro o
      cases o
      · exact ⟨hpQ.symm, isCoprime_one_right⟩
      · exact ⟨isCoprime_one_right, hpQ.symm⟩
    refine ⟨?_, hz, ?_, hxw⟩
    · rw [rep_low, mul_zero, add_zero] at e1
      exact (hcop _).1.dvd_of_dvd_mul_right (e1 ▸ dvd_add (i1.mul_left _) (hQc.mul_left _))
    · rw [rep_low, zero_mul, zero_add] at e4
      have h5 : Q ∣ z * (rep (perm a b c d o)).2.1 + w * (rep (perm a b c d o)).2.2.2 := e4 ▸ i3.mul_left _
      exact (hcop _).2.dvd_of_dvd_mul_right ((dvd_add_right ((hQN.trans hz).mul_right _)).1 h5)
  have hr' : (rep (perm a b c d o)).1 * (rep (perm a b c d o)).2.2.2 - (rep (perm a b c d o)).2.1 * (rep (perm a b c d o)).2.2.1 ≠ 0 := by
    rw [rep_det]; exact hp0
  show slash a b c d (slash (rep o).1 (rep o).2.1 (rep o).2.2.1 (rep o).2.2.2 f) α β = _
  rw [slash_slash hdet0, e1, e2, e3, e4, ← slash_slash hr']
  unfold slash
  exact al_unique hf hQ hQN h hal _ _

theorem heckeT_conj (hf : IsModSym N pf f) (hpN : IsCoprime (p : ℤ) N) :
    heckeT p (slash (-1) 0 0 1 f) = slash (-1) 0 0 1 (heckeT p f) := by
  funext α β
  have hp0 : (p : ℤ) ≠ 0 := by exact_mod_cast hp.out.ne_zero
  have hg : (((-1) * 1 - 0 * 0 : ℤ) : ZMod p) ≠ 0 := by simp
  symm
  show heckeT p f _ _ = _
  rw [heckeT_eq, heckeT_eq]
  refine Fintype.sum_bijective _ (perm_bij hg) _ _ fun o => ?_
  obtain ⟨h1, h2⟩ := rep_mul o hg
  have hr := rep_det o
  have hl := rep_low o
  show slash (-1) 0 0 1 (slash (rep o).1 (rep o).2.1 (rep o).2.2.1 (rep o).2.2.2 f) α β = _
  generalize (rep o).1 = a, (rep o).2.1 = b, (rep o).2.2.1 = c, (rep o).2.2.2 = d at *
  have hd : a * d - -b * -c = p := by linear_combination hr
  rw [← slash_rep (conj_isModSym hf) hpN (a := a) (b := -b) (c := -c) (d := d) (by push_cast at h1 ⊢; linear_combination -h1)
    (by push_cast at h2 ⊢; linear_combination h2) (by rw [hl]; simp) hd, slash_slash (by norm_num),
    slash_slash (by rw [hd]; exact hp0)]
  congr 1 <;> ring

end mixed

/-- `W_Q W_Q'` is `W_Q''` up to a factor -/
theorem al_mul (hf : IsModSym N pf f) {G A B C : ℤ} (hN : N = G * A * B * C) (hG : G ≠ 0) (hA : A ≠ 0) (hB : B ≠ 0) {a b c d a' b' c' d' : ℤ}
    (h : IsAL N (G * A) a b c d) (h' : IsAL N (G * B) a' b' c' d') :
    ∃ x y z w, IsAL N (A * B) x y z w ∧ slash a' b' c' d' (slash a b c d f) = slash x y z w f := by
  obtain ⟨⟨x, rfl⟩, ⟨z, rfl⟩, ⟨w, rfl⟩, hd⟩ := h
  obtain ⟨⟨x', rfl⟩, ⟨z', rfl⟩, ⟨w', rfl⟩, hd'⟩ := h'
  subst hN
  have e1 : G * A * x * w - b * B * C * z = 1 := mul_left_cancel₀ (mul_ne_zero hG hA) (by linear_combination hd)
  have e2 : G * B * x' * w' - b' * A * C * z' = 1 := mul_left_cancel₀ (mul_ne_zero hG hB) (by linear_combination hd')
  refine ⟨A * B * (G * x * x' + b * C * z'), A * x * b' + B * b * w', G * A * B * C * (B * z * x' + A * w * z'),
    A * B * (C * z * b' + G * w * w'), ⟨by simp, by simp, by simp, ?_⟩, ?_⟩
  · linear_combination A * B * (e1 + (G * A * x * w - b * B * C * z) * e2)
  · funext α β
    rw [slash_slash (by rw [hd']; exact mul_ne_zero hG hB)]
    unfold slash
    rw [← mob_scale hG (A * B * (G * x * x' + b * C * z')), ← mob_scale hG (A * B * (G * x * x' + b * C * z'))]
    congr 2 <;> ring

theorem al_comm (hf : IsModSym N pf f) {Q Q' : ℤ} (hQ : Q ≠ 0) (hQN : Q ∣ N) (hQ' : Q' ≠ 0) (hQN' : Q' ∣ N)
    {a b c d a' b' c' d' : ℤ} (h : IsAL N Q a b c d) (h' : IsAL N Q' a' b' c' d') :
    slash a' b' c' d' (slash a b c d f) = slash a b c d (slash a' b' c' d' f) := by
  have hg : (Int.gcd Q Q' : ℤ) ≠ 0 := by
    intro h0
    exact hQ (Int.gcd_eq_zero_iff.1 (by exact_mod_cast h0)).1
  obtain ⟨A, hA⟩ := Int.gcd_dvd_left Q Q'
  obtain ⟨B, hB⟩ := Int.gcd_dvd_right Q Q'
  have hA0 : A ≠ 0 := by rintro rfl; exact hQ (by rw [hA, mul_zero])
  have hB0 : B ≠ 0 := by rintro rfl; exact hQ' (by rw [hB, mul_zero])
  have hAB : IsCoprime A B := by
    have := Int.gcd_eq_gcd_ab Q Q'
    refine ⟨Int.gcdA Q Q', Int.gcdB Q Q', mul_left_cancel₀ hg ?_⟩
    rw [mul_one]
    linear_combination -this - Int.gcdA Q Q' * hA - Int.gcdB Q Q' * hB
  generalize (Int.gcd Q Q' : ℤ) = G at *
  obtain ⟨n, hn⟩ := hQN
  obtain ⟨n', hn'⟩ := hQN'
  have e : A * n = B * n' := mul_left_cancel₀ hg (by rw [← mul_assoc, ← mul_assoc, ← hA, ← hB, ← hn, ← hn'])
  obtain ⟨C, hC⟩ := hAB.symm.dvd_of_dvd_mul_left ⟨n', e⟩
  have hNC : N = G * A * B * C := by rw [hn, hC, hA]; ring
  rw [hA] at h
  rw [hB] at h'
  obtain ⟨x, y, z, w, k1, k2⟩ := al_mul hf hNC hg hA0 hB0 h h'
  obtain ⟨x', y', z', w', k3, k4⟩ := al_mul hf (G := G) (A := B) (B := A) (C := C) (by rw [hNC]; ring) hg hB0 hA0 h' h
  rw [k2, k4]
  rw [mul_comm B A] at k3
  funext α β
  exact al_unique hf (mul_ne_zero hA0 hB0) ⟨G * C, by rw [hNC]; ring⟩ k3 k1 α β

theorem al_conj (hf : IsModSym N pf f) {Q : ℤ} (hQ : Q ≠ 0) (hQN : Q ∣ N) {a b c d : ℤ} (h : IsAL N Q a b c d) :
    slash a b c d (slash (-1) 0 0 1 f) = slash (-1) 0 0 1 (slash a b c d f) := by
  funext α β
  have h3 : IsAL N Q a (-b) (-c) d := ⟨h.1, h.2.1.neg_right, h.2.2.1, by linear_combination h.2.2.2⟩
  have h4 := al_unique hf hQ hQN h h3 (mob (-1) 0 0 1 α) (mob (-1) 0 0 1 β)
  refine Eq.trans ?_ h4
  show _ = slash (-1) 0 0 1 (slash a (-b) (-c) d f) α β
  rw [slash_slash (by rw [h.2.2.2]; exact hQ), slash_slash (by norm_num)]
  congr 1 <;> ring

/-- the operators commute on modular symbols -/
theorem op_comm (hf : IsModSym N pf f)
    {F G : (OnePoint ℚ → OnePoint ℚ → K) → OnePoint ℚ → OnePoint ℚ → K} (hF : IsOp N F) (hG : IsOp N G) : F (G f) = G (F f) := by
  have cop : ∀ {p : ℕ}, p.Prime → ¬(p : ℤ) ∣ N → IsCoprime (p : ℤ) N := fun hp h =>
    (Prime.coprime_iff_not_dvd (Nat.prime_iff_prime_int.1 hp)).2 h
  cases hF with
  | @hecke p hp hpN =>
    have : Fact p.Prime := ⟨hp⟩
    cases hG with
    | @hecke r hr hrN =>
      have : Fact r.Prime := ⟨hr⟩
      by_cases hne : p = r
      · subst hne; rfl
      · exact heckeT_comm hf hne (cop hp hpN) (cop hr hrN)
    | al hQ hQN h => exact heckeT_al hf (cop hp hpN) hQ hQN h
    | conj => exact heckeT_conj hf (cop hp hpN)
  | al hQ hQN h =>
    cases hG with
    | @hecke r hr hrN =>
      have : Fact r.Prime := ⟨hr⟩
      exact (heckeT_al hf (cop hr hrN) hQ hQN h).symm
    | al hQ' hQN' h' => exact al_comm hf hQ' hQN' hQ hQN h' h
    | conj => exact al_conj hf hQ hQN h
  | conj =>
    cases hG with
    | @hecke r hr hrN =>
      have : Fact r.Prime := ⟨hr⟩
      exact (heckeT_conj hf (cop hr hrN)).symm
    | al hQ hQN h => exact (al_conj hf hQ hQN h).symm
    | conj => rfl

/-! ### the matrices -/

section mats

variable {q : ℕ} [Fact q.Prime] {k : ℕ} {m : Fin k → R × R} {A B : Fin k → Fin k → ℤ}
  {F G : (OnePoint ℚ → OnePoint ℚ → ZMod q) → OnePoint ℚ → OnePoint ℚ → ZMod q}

theorem matOf_mul (hA : IsMatOf q N pf m A F) (hB : IsMatOf q N pf m B G) : IsMatOf q N pf m (fun i j => ∑ l, A i l * B l j) (F ∘ G) := by
  intro f hf
  obtain ⟨h1, h2⟩ := hB f hf
  obtain ⟨h3, h4⟩ := hA _ h1
  refine ⟨h3, fun j => ?_⟩
  show F (G f) _ _ = _
  rw [h4]
  simp_rw [h2, Finset.mul_sum]
  rw [Finset.sum_comm]
  refine Finset.sum_congr rfl fun i _ => ?_
  push_cast
  rw [Finset.sum_mul]
  exact Finset.sum_congr rfl fun l _ => by ring

theorem matOf_congr (hA : IsMatOf q N pf m A F) (h : ∀ f, IsModSym N pf f → F f = G f) : IsMatOf q N pf m A G := by
  intro f hf
  rw [← h f hf]
  exact hA f hf

theorem matOf_id : IsMatOf q N pf m (fun i j => if i = j then 1 else 0) id := fun f hf => ⟨hf, fun j => by simp⟩

end mats

namespace ManinSpec

/-- the matrix modulo `q` with rows given by vectors -/
def modMat (q : ℕ) {k : ℕ} (A : Fin k → Fin k → ℤ) : Matrix (Fin k) (Fin k) (ZMod q) := fun i j => (A i j : ZMod q)

end ManinSpec

theorem modMat_comm {q : ℕ} [Fact q.Prime] {k : ℕ} {m : Fin k → R × R} (hb : IsBasis q N pf m)
    {A B : Fin k → Fin k → ℤ} {F G : (OnePoint ℚ → OnePoint ℚ → ZMod q) → OnePoint ℚ → OnePoint ℚ → ZMod q}
    (hA : IsMatOf q N pf m A F) (hB : IsMatOf q N pf m B G) (hF : IsOp N F) (hG : IsOp N G) :
    modMat q A * modMat q B = modMat q B * modMat q A := by
  have h1 := matOf_congr (matOf_mul hA hB) (G := G ∘ F) fun f hf => op_comm hf hF hG
  ext i j
  have := matOf_unique hb h1 (matOf_mul hB hA) i j
  push_cast at this
  exact this

theorem modMat_sq {q : ℕ} [Fact q.Prime] {k : ℕ} {m : Fin k → R × R} (hb : IsBasis q N pf m)
    {A : Fin k → Fin k → ℤ} {F : (OnePoint ℚ → OnePoint ℚ → ZMod q) → OnePoint ℚ → OnePoint ℚ → ZMod q}
    (hA : IsMatOf q N pf m A F) (hF : ∀ f, IsModSym N pf f → F (F f) = f) : modMat q A * modMat q A = 1 := by
  have h1 := matOf_congr (matOf_mul hA hA) (G := id) fun f hf => hF f hf
  ext i j
  have := matOf_unique hb h1 matOf_id i j
  push_cast at this
  rw [Matrix.one_apply]
  exact this

/-- **C80.**  The matrices computed by `heckeop` for all primes and for the level, and the matrix computed
by `conj`, commute modulo the prime `q`; those for divisors of the level and `conj` are involutions. -/
theorem C80_commute {q : ℕ} [Fact q.Prime] {N : ℤ} (hN : 1 < N) {ps : List ℤ} (hps : Spec.IsPrimeDivisorList N ps)
    {S : Symbdata} (hS : Symbdata.make N ps = some S) {pf : ℤ} (hpf : pf = 0 ∨ pf = 1 ∨ pf = -1) (hq : 3 < q)
    (X : Marith.XGcd) (t : T) {sparse : Elim.St → Bool} (hsp : SparseOk sparse) {rref : Mat.M → Mat.Ech}
    (hRr : RrefOk q rref) {fuel : ℕ} (hf : (S.nsymb.toNat + 11) * (2 * S.nsymb.toNat + 11) ≤ fuel) :
    ∃ H th, make X t q sparse rref fuel S pf = some (H, th) ∧
      ∃ (A : ℤ → Fin H.rk → Fin H.rk → ℤ) (C : Fin H.rk → Fin H.rk → ℤ),
        (∀ n : ℤ, n = N ∨ (∃ p : ℕ, p.Prime ∧ n = p) → ∃ rows, H.heckeop n = some (List.ofFn rows) ∧ ∀ j, SRep True (rows j) (A n j)) ∧
        (∃ cols, H.conj = some (List.ofFn cols) ∧ ∀ j, SRep True (cols j) (C j)) ∧
        (∀ n n' : ℤ, (n = N ∨ ∃ p : ℕ, p.Prime ∧ n = p) → (n' = N ∨ ∃ p : ℕ, p.Prime ∧ n' = p) →
          modMat q (A n) * modMat q (A n') = modMat q (A n') * modMat q (A n)) ∧
        (∀ n : ℤ, (n = N ∨ ∃ p : ℕ, p.Prime ∧ n = p) → modMat q (A n) * modMat q C = modMat q C * modMat q (A n)) ∧
        (∀ n : ℤ, (n = N ∨ ∃ p : ℕ, p.Prime ∧ n = p) → n ∣ N → modMat q (A n) * modMat q (A n) = 1) ∧
        modMat q C * modMat q C = 1 := by
  obtain ⟨H, th, e, m, -, hb, h1, h2, h3, h4⟩ := C77_hecke hN hps hS hpf hq X t hsp hRr hf
  have hN0 : N ≠ 0 := by omega
  have key : ∀ n : ℤ, (n = N ∨ ∃ p : ℕ, p.Prime ∧ n = p) → ∃ A : Fin H.rk → Fin H.rk → ℤ,
      (∃ rows, H.heckeop n = some (List.ofFn rows) ∧ ∀ j, SRep True (rows j) (A j)) ∧
      ∃ F, IsMatOf q N pf m A F ∧ IsOp N F ∧ (n ∣ N → ∀ f, IsModSym N pf f → F (F f) = f) := by
    rintro n (rfl | ⟨p, hp, rfl⟩)
    · obtain ⟨rows, A, k1, k2, k3⟩ := h3
      have hal : IsAL n n 0 (-1) n 0 := ⟨by simp, by simp, by simp, by ring⟩
      exact ⟨A, ⟨rows, k1, k2⟩, _, k3, .al hN0 dvd_rfl hal, fun _ f hf => al_involution hf hN0 dvd_rfl hal⟩
    · by_cases hpN : (p : ℤ) ∣ N
      · obtain ⟨e, n, k1, k2, ⟨a, b, c, d, k3⟩, rows, A, k4, k5, k6⟩ := h2 p hp hpN
        have hQ : (p : ℤ) ^ e ≠ 0 := pow_ne_zero _ (by exact_mod_cast hp.ne_zero)
        exact ⟨A, ⟨rows, k4, k5⟩, _, k6 a b c d k3, .al hQ ⟨n, k1⟩ k3, fun _ f hf => al_involution hf hQ ⟨n, k1⟩ k3⟩
      · obtain ⟨rows, A, k4, k5, k6⟩ := h1 p hp hpN
        exact ⟨A, ⟨rows, k4, k5⟩, _, k6, .hecke hp hpN, fun h => absurd h hpN⟩
  obtain ⟨cols, C, c1, c2, c3⟩ := h4
  classical
  choose! A a1 F a2 a3 a4 using key
  refine ⟨H, th, e, A, C, a1, ⟨cols, c1, c2⟩, fun n n' hn hn' => ?_, fun n hn => ?_, fun n hn hd => ?_, ?_⟩
  · exact modMat_comm hb (a2 n hn) (a2 n' hn') (a3 n hn) (a3 n' hn')
  · exact modMat_comm hb (a2 n hn) c3 (a3 n hn) .conj
  · exact modMat_sq hb (a2 n hn) (a4 n hn hd)
  · refine modMat_sq hb c3 fun f hf => ?_
    funext α β
    rw [slash_slash (by norm_num)]
    have := hf.inv 1 0 0 1 (by norm_num) (by simp) α β
    rw [← this]
    unfold slash
    norm_num

/-! ### examples -/

/-- the hypotheses are met at the level 11, with `T_2` and `T_3` -/
example : ∃ S H th, Symbdata.make 11 [11] = some S ∧
    make Marith.Props.xgcd0 .int (1073741789 : ℕ) (fun _ => true) (Mat.echmodp Marith.Props.xgcd0 .int (1073741789 : ℕ))
      ((S.nsymb.toNat + 11) * (2 * S.nsymb.toNat + 11)) S 0 = some (H, th) ∧
    ∃ A B : Fin H.rk → Fin H.rk → ℤ, (∃ rows, H.heckeop 2 = some (List.ofFn rows) ∧ ∀ j, SRep True (rows j) (A j)) ∧
      (∃ rows, H.heckeop 3 = some (List.ofFn rows) ∧ ∀ j, SRep True (rows j) (B j)) ∧
      modMat 1073741789 A * modMat 1073741789 B = modMat 1073741789 B * modMat 1073741789 A := by
  have : Fact (Nat.Prime 1073741789) := ⟨Xmod.Props.P_prime⟩
  obtain ⟨S, hS, _⟩ := Symb.specials_spec (by norm_num) ps11
  obtain ⟨H, th, h, A, C, h1, -, h2, -⟩ := C80_commute (q := 1073741789) (by norm_num) ps11 hS (pf := 0) (by norm_num) (by norm_num)
    Marith.Props.xgcd0 .int (sparse := fun _ => true) (fun _ _ => rfl) (Elim.rrefOk_echmodp _ .int) le_rfl
  have p2 : (2 : ℤ) = 11 ∨ ∃ p : ℕ, p.Prime ∧ (2 : ℤ) = p := .inr ⟨2, by norm_num, rfl⟩
  have p3 : (3 : ℤ) = 11 ∨ ∃ p : ℕ, p.Prime ∧ (3 : ℤ) = p := .inr ⟨3, by norm_num, rfl⟩
  exact ⟨S, H, th, hS, h, A 2, A 3, h1 2 p2, h1 3 p3, h2 2 3 p2 p3⟩

/-- `T_3` at level 11; see above for `T_2` and `conj`, which are not diagonal either -/
example : (ex11.bind fun H => H.heckeop 3) =
    some [⟨3, [(1, 4), (2, -1), (3, 1)]⟩, ⟨3, [(2, -1)]⟩, ⟨3, [(3, -1)]⟩] := by decide +kernel

/-- the operators are not trivial: `T_2` and `W_11` at level 11, and conjugation -/
example : IsOp (K := ℚ) 11 (heckeT 2) ∧ IsOp (K := ℚ) 11 (slash 0 (-1) 11 0) ∧ IsOp (K := ℚ) 11 (slash (-1) 0 0 1) :=
  ⟨.hecke (by norm_num) (by norm_num), .al (by norm_num) dvd_rfl ⟨by simp, by simp, by simp, by norm_num⟩, .conj⟩

end Eclib.Hom
