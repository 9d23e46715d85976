import Verif.Hom.Cusp
import Mathlib.Data.ZMod.Basic
import Mathlib.Algebra.Field.ZMod
import Mathlib.Algebra.BigOperators.Option
import Mathlib.Data.Fintype.Option

/-!
# Hecke operators and Atkin–Lehner operators on modular symbols
-/

set_option linter.unusedSectionVars false

namespace Eclib.Hom

open ManinSpec

namespace ManinSpec

variable {K : Type*} [Field K]

/-- the Hecke operator `T_p` for a prime `p` not dividing the level:
`(T_p f)(α,β) = f(pα,pβ) + ∑ f((α+j)/p,(β+j)/p)` -/
noncomputable def heckeT (p : ℕ) (f : OnePoint ℚ → OnePoint ℚ → K) (α β : OnePoint ℚ) : K :=
  f (mob p 0 0 1 α) (mob p 0 0 1 β) + ∑ j ∈ Finset.range p, f (mob 1 j 0 p α) (mob 1 j 0 p β)

/-- matrices of Atkin–Lehner: `(Qx, y; Nz, Qw)` with determinant `Q` -/
def IsAL (N Q : ℤ) (a b c d : ℤ) : Prop := Q ∣ a ∧ N ∣ c ∧ Q ∣ d ∧ a * d - b * c = Q

/-- A function of two cusps invariant under `Γ₀(N)`, for `pf = ±1` moreover an eigenfunction of `x ↦ -x`;
modular symbols are those which are also additive. -/
structure IsInv (N pf : ℤ) (f : OnePoint ℚ → OnePoint ℚ → K) : Prop where
  inv : ∀ a b c d : ℤ, a * d - b * c = 1 → N ∣ c → ∀ α β, f (mob a b c d α) (mob a b c d β) = f α β
  sign : pf ≠ 0 → ∀ α β, f (mob (-1) 0 0 1 α) (mob (-1) 0 0 1 β) = (pf : K) * f α β

theorem IsModSym.toInv {N pf : ℤ} {f : OnePoint ℚ → OnePoint ℚ → K} (hf : IsModSym N pf f) : IsInv N pf f := ⟨hf.inv, hf.sign⟩

/-- the action of a matrix -/
noncomputable def slash (a b c d : ℤ) (f : OnePoint ℚ → OnePoint ℚ → K) (α β : OnePoint ℚ) : K :=
  f (mob a b c d α) (mob a b c d β)

end ManinSpec

variable {K : Type*} [Field K] {N pf : ℤ} {f : OnePoint ℚ → OnePoint ℚ → K}

theorem ne_zero_of_coprime {x y : ℤ} (h : IsCoprime x y) : x ≠ 0 ∨ y ≠ 0 := by
  by_contra hc
  push Not at hc
  obtain ⟨u, v, h⟩ := h
  rw [hc.1, hc.2] at h
  norm_num at h

theorem apply_ne {a b c d x y : ℤ} (h : a * d - b * c ≠ 0) (hx : x ≠ 0 ∨ y ≠ 0) : a * x + b * y ≠ 0 ∨ c * x + d * y ≠ 0 := by
  by_contra hc
  push Not at hc
  have h1 : (a * d - b * c) * x = 0 := by linear_combination d * hc.1 - b * hc.2
  have h2 : (a * d - b * c) * y = 0 := by linear_combination a * hc.2 - c * hc.1
  rcases hx with h3 | h3
  · exact (mul_ne_zero h h3) h1
  · exact (mul_ne_zero h h3) h2

/-- the product of matrices -/
theorem mob_mob (a b c d : ℤ) {a' b' c' d' : ℤ} (h : a' * d' - b' * c' ≠ 0) (α : OnePoint ℚ) :
    mob a b c d (mob a' b' c' d' α) = mob (a * a' + b * c') (a * b' + b * d') (c * a' + d * c') (c * b' + d * d') α := by
  obtain ⟨x, y, hxy, -, rfl⟩ := exists_cusp α
  have h0 := ne_zero_of_coprime hxy
  rw [mob_cusp _ _ _ _ h0, mob_cusp _ _ _ _ (apply_ne h h0), mob_cusp _ _ _ _ h0]
  congr 1 <;> ring

theorem mob_scale {k : ℤ} (hk : k ≠ 0) (a b c d : ℤ) (α : OnePoint ℚ) :
    mob (k * a) (k * b) (k * c) (k * d) α = mob a b c d α := by
  obtain ⟨x, y, hxy, -, rfl⟩ := exists_cusp α
  have h0 := ne_zero_of_coprime hxy
  rw [mob_cusp _ _ _ _ h0, mob_cusp _ _ _ _ h0, ← cusp_scale hk (a * x + b * y)]
  congr 1 <;> ring

/-- `f` at `(MM'α, MM'β)` for `M` in `Γ₀(N)` -/
theorem ManinSpec.IsInv.left (hf : IsInv N pf f) {a b c d a' b' c' d' : ℤ} (h : a * d - b * c = 1) (hc : N ∣ c)
    (h' : a' * d' - b' * c' ≠ 0) (α β : OnePoint ℚ) :
    slash (a * a' + b * c') (a * b' + b * d') (c * a' + d * c') (c * b' + d * d') f α β = slash a' b' c' d' f α β := by
  unfold slash
  rw [← mob_mob a b c d h', ← mob_mob a b c d h', hf.inv _ _ _ _ h hc]

theorem ManinSpec.IsModSym.left (hf : IsModSym N pf f) {a b c d a' b' c' d' : ℤ} (h : a * d - b * c = 1) (hc : N ∣ c)
    (h' : a' * d' - b' * c' ≠ 0) (α β : OnePoint ℚ) :
    slash (a * a' + b * c') (a * b' + b * d') (c * a' + d * c') (c * b' + d * d') f α β = slash a' b' c' d' f α β :=
  hf.toInv.left h hc h' α β

theorem slash_slash {a b c d a' b' c' d' : ℤ} (h' : a' * d' - b' * c' ≠ 0) (α β : OnePoint ℚ) :
    slash a' b' c' d' (slash a b c d f) α β =
      slash (a * a' + b * c') (a * b' + b * d') (c * a' + d * c') (c * b' + d * d') f α β := by
  unfold slash
  rw [mob_mob a b c d h', mob_mob a b c d h']

/-! ### Atkin–Lehner -/

theorem al_unique' (hf : IsInv N pf f) {Q : ℤ} (hQ : Q ≠ 0) (hQN : Q ∣ N) {a b c d a' b' c' d' : ℤ} (h : IsAL N Q a b c d)
    (h' : IsAL N Q a' b' c' d') (α β : OnePoint ℚ) : slash a' b' c' d' f α β = slash a b c d f α β := by
  obtain ⟨⟨x, rfl⟩, ⟨z, rfl⟩, ⟨w, rfl⟩, hd⟩ := h
  obtain ⟨⟨x', rfl⟩, ⟨z', rfl⟩, ⟨w', rfl⟩, hd'⟩ := h'
  obtain ⟨n, rfl⟩ := hQN
  have e1 : Q * x * w - b * n * z = 1 := mul_left_cancel₀ hQ (by linear_combination hd)
  have e2 : Q * x' * w' - b' * n * z' = 1 := mul_left_cancel₀ hQ (by linear_combination hd')
  have hl := hf.left (a := Q * x' * w - b' * n * z) (b := x * b' - x' * b) (c := Q * n * (z' * w - w' * z))
    (d := Q * w' * x - n * z' * b) (a' := Q * x) (b' := b) (c' := Q * n * z) (d' := Q * w)
    (by linear_combination e1 + (Q * x * w - b * n * z) * e2) (by simp) (by rw [hd]; exact hQ) α β
  rw [← hl]
  congr 1
  · linear_combination -Q * x' * e1
  · linear_combination -b' * e1
  · linear_combination -Q * n * z' * e1
  · linear_combination -Q * w' * e1

theorem al_unique (hf : IsModSym N pf f) {Q : ℤ} (hQ : Q ≠ 0) (hQN : Q ∣ N) {a b c d a' b' c' d' : ℤ} (h : IsAL N Q a b c d)
    (h' : IsAL N Q a' b' c' d') (α β : OnePoint ℚ) : slash a' b' c' d' f α β = slash a b c d f α β :=
  al_unique' hf.toInv hQ hQN h h' α β

theorem al_isInv (hf : IsInv N pf f) {Q : ℤ} (hQ : Q ≠ 0) (hQN : Q ∣ N) {a b c d : ℤ} (h : IsAL N Q a b c d) :
    IsInv N pf (slash a b c d f) := by
  refine ⟨fun x y z w hd hz α β => ?_, fun hp α β => ?_⟩
  · have := slash_slash (f := f) (a := a) (b := b) (c := c) (d := d) (a' := x) (b' := y) (c' := z) (d' := w)
      (by rw [hd]; norm_num) α β
    refine (Eq.trans ?_ this).trans (al_unique' hf hQ hQN h ?_ α β)
    · rfl
    · obtain ⟨h1, h2, h3, h4⟩ := h
      refine ⟨dvd_add (h1.mul_right _) ((hQN.trans hz).mul_left _), dvd_add (h2.mul_right _) (hz.mul_left _),
        dvd_add ((hQN.trans h2).mul_right _) (h3.mul_right _), ?_⟩
      linear_combination (x * w - y * z) * h4 + Q * hd
  · have h1 := slash_slash (f := f) (a := a) (b := b) (c := c) (d := d) (a' := -1) (b' := 0) (c' := 0) (d' := 1)
      (by norm_num) α β
    have h2 := slash_slash (f := f) (a := -1) (b := 0) (c := 0) (d := 1) (a' := a) (b' := -b) (c' := -c) (d' := d)
      (by obtain ⟨_, _, _, h4⟩ := h; rw [neg_mul_neg, h4]; exact hQ) α β
    have h3 : IsAL N Q a (-b) (-c) d := ⟨h.1, h.2.1.neg_right, h.2.2.1, by linear_combination h.2.2.2⟩
    have h4 := al_unique' hf hQ hQN h h3 α β
    have h5 := hf.sign hp (mob a (-b) (-c) d α) (mob a (-b) (-c) d β)
    refine (Eq.trans ?_ (h1.trans ?_)).trans ((h2.symm.trans h5).trans (congrArg _ h4))
    · rfl
    · congr 1 <;> ring

theorem al_isModSym (hf : IsModSym N pf f) {Q : ℤ} (hQ : Q ≠ 0) (hQN : Q ∣ N) {a b c d : ℤ} (h : IsAL N Q a b c d) :
    IsModSym N pf (slash a b c d f) :=
  have := al_isInv hf.toInv hQ hQN h
  ⟨fun _ _ _ => hf.add _ _ _, this.inv, this.sign⟩

/-- the square is the identity -/
theorem al_involution (hf : IsModSym N pf f) {Q : ℤ} (hQ : Q ≠ 0) (hQN : Q ∣ N) {a b c d : ℤ} (h : IsAL N Q a b c d) :
    slash a b c d (slash a b c d f) = f := by
  funext α β
  obtain ⟨⟨x, rfl⟩, ⟨z, rfl⟩, ⟨w, rfl⟩, hd⟩ := h
  rw [slash_slash (by rw [hd]; exact hQ)]
  obtain ⟨n, rfl⟩ := hQN
  have e1 : Q * x * w - b * n * z = 1 := mul_left_cancel₀ hQ (by linear_combination hd)
  have e2 := hf.inv (Q * x * x + b * n * z) (x * b + b * w) (Q * n * (z * x + w * z)) (n * z * b + Q * w * w)
    (by linear_combination (Q * x * w - b * n * z + 1) * e1) (by simp) α β
  rw [← mob_scale hQ _ _ _ _ α, ← mob_scale hQ _ _ _ _ β] at e2
  rw [← e2]
  unfold slash
  congr 2 <;> ring

/-! ### Hecke -/

section hecke

variable {p : ℕ} [hp : Fact p.Prime]

/-- the lines modulo `p`: `(0,1)` and `(1,j)` -/
def line : Option (ZMod p) → ZMod p × ZMod p
  | none => (0, 1)
  | some j => (1, j)

/-- the line of a vector -/
def lineOf (v : ZMod p × ZMod p) : Option (ZMod p) := if v.1 = 0 then none else some (v.2 / v.1)

/-- the representatives: `(p,0;0,1)` and `(1,j;0,p)` -/
def rep : Option (ZMod p) → ℤ × ℤ × ℤ × ℤ
  | none => (p, 0, 0, 1)
  | some j => (1, j.val, 0, p)

theorem lineOf_spec {v : ZMod p × ZMod p} (hv : v ≠ 0) (x y : ZMod p) (h : x * v.2 - y * v.1 = 0) :
    x * (line (lineOf v)).2 - y * (line (lineOf v)).1 = 0 := by
  unfold lineOf
  by_cases h0 : v.1 = 0
  · rw [if_pos h0]
    rw [h0, mul_zero, sub_zero] at h
    have hv2 : v.2 ≠ 0 := fun h2 => hv (Prod.ext h0 h2)
    simp only [line]
    rcases mul_eq_zero.1 h with h | h
    · rw [h]; ring
    · exact absurd h hv2
  · rw [if_neg h0]
    simp only [line]
    field_simp
    linear_combination h

theorem line_eq {o o' : Option (ZMod p)} (h : (line o).1 * (line o').2 - (line o).2 * (line o').1 = 0) : o = o' := by
  cases o <;> cases o' <;> simp [line] at h ⊢
  linear_combination -h

theorem line_ne (o : Option (ZMod p)) : line o ≠ 0 := by
  cases o <;> simp [line, Prod.ext_iff]

/-- the action of a matrix on vectors from the right -/
def vmul (v : ZMod p × ZMod p) (a b c d : ℤ) : ZMod p × ZMod p := (v.1 * a + v.2 * c, v.1 * b + v.2 * d)

theorem vmul_ne {a b c d : ℤ} (h : ((a * d - b * c : ℤ) : ZMod p) ≠ 0) {v : ZMod p × ZMod p} (hv : v ≠ 0) : vmul v a b c d ≠ 0 := by
  intro h0
  apply hv
  rw [Prod.ext_iff] at h0
  obtain ⟨h1, h2⟩ := h0
  simp only [vmul, Prod.fst_zero, Prod.snd_zero] at h1 h2
  push_cast at h
  ext
  · have : ((a : ZMod p) * d - b * c) * v.1 = 0 := by linear_combination (d : ZMod p) * h1 - (c : ZMod p) * h2
    exact (mul_eq_zero.1 this).resolve_left h
  · have : ((a : ZMod p) * d - b * c) * v.2 = 0 := by linear_combination (a : ZMod p) * h2 - (b : ZMod p) * h1
    exact (mul_eq_zero.1 this).resolve_left h

/-- the permutation of the lines by a matrix -/
def perm (a b c d : ℤ) (o : Option (ZMod p)) : Option (ZMod p) := lineOf (vmul (line o) a b c d)

theorem perm_bij {a b c d : ℤ} (h : ((a * d - b * c : ℤ) : ZMod p) ≠ 0) : Function.Bijective (perm (p := p) a b c d) := by
  rw [← Finite.injective_iff_bijective]
  intro o o' he
  apply line_eq
  have hv := vmul_ne h (line_ne o)
  have hv' := vmul_ne h (line_ne o')
  have h1 := lineOf_spec hv _ _ (show (vmul (line o) a b c d).1 * (vmul (line o) a b c d).2 -
    (vmul (line o) a b c d).2 * (vmul (line o) a b c d).1 = 0 by ring)
  have h2 := lineOf_spec hv' _ _ (show (vmul (line o') a b c d).1 * (vmul (line o') a b c d).2 -
    (vmul (line o') a b c d).2 * (vmul (line o') a b c d).1 = 0 by ring)
  unfold perm at he
  rw [← he] at h2
  have hl := line_ne (lineOf (vmul (line o) a b c d))
  set l := line (lineOf (vmul (line o) a b c d))
  push_cast at h
  have key : (vmul (line o) a b c d).1 * (vmul (line o') a b c d).2 - (vmul (line o) a b c d).2 * (vmul (line o') a b c d).1 = 0 := by
    by_cases hl1 : l.1 = 0
    · have hl2 : l.2 ≠ 0 := fun h => hl (Prod.ext hl1 h)
      rw [hl1, mul_zero, sub_zero] at h1 h2
      rw [(mul_eq_zero.1 h1).resolve_right hl2, (mul_eq_zero.1 h2).resolve_right hl2]
      ring
    · apply (mul_eq_zero.1 (?_ : _ * l.1 = 0)).resolve_right hl1
      linear_combination (vmul (line o') a b c d).1 * h1 - (vmul (line o) a b c d).1 * h2
  simp only [vmul] at key
  apply (mul_eq_zero.1 (?_ : ((a : ZMod p) * d - b * c) * _ = 0)).resolve_left h
  linear_combination key

/-- a matrix whose rows lie modulo `p` in a line is divisible from the right by the representative -/
theorem divide {a b c d : ℤ} {o : Option (ZMod p)} (h1 : (a : ZMod p) * (line o).2 - b * (line o).1 = 0)
    (h2 : (c : ZMod p) * (line o).2 - d * (line o).1 = 0) (hpN : IsCoprime (p : ℤ) N) (hc : N ∣ c) :
    ∃ x y z w : ℤ, N ∣ z ∧ (x * w - y * z) * p = a * d - b * c ∧ a = x * (rep o).1 + y * (rep o).2.2.1 ∧
      b = x * (rep o).2.1 + y * (rep o).2.2.2 ∧ c = z * (rep o).1 + w * (rep o).2.2.1 ∧
      d = z * (rep o).2.1 + w * (rep o).2.2.2 := by
  cases o with
  | none =>
    simp only [line, mul_one, mul_zero, sub_zero] at h1 h2
    obtain ⟨x, rfl⟩ := (ZMod.intCast_zmod_eq_zero_iff_dvd a p).1 h1
    obtain ⟨z, rfl⟩ := (ZMod.intCast_zmod_eq_zero_iff_dvd c p).1 h2
    exact ⟨x, b, z, d, hpN.symm.dvd_of_dvd_mul_left hc, by ring, by simp only [rep]; ring, by simp only [rep]; ring,
      by simp only [rep]; ring, by simp only [rep]; ring⟩
  | some j =>
    simp only [line, mul_one] at h1 h2
    have e : ((j.val : ℤ) : ZMod p) = j := by simp
    rw [← e] at h1 h2
    obtain ⟨y, hy⟩ := (ZMod.intCast_zmod_eq_zero_iff_dvd (b - a * j.val) p).1 (by push_cast at h1 ⊢; linear_combination -h1)
    obtain ⟨w, hw⟩ := (ZMod.intCast_zmod_eq_zero_iff_dvd (d - c * j.val) p).1 (by push_cast at h2 ⊢; linear_combination -h2)
    refine ⟨a, y, c, w, hc, ?_, ?_, ?_, ?_, ?_⟩
    · linear_combination c * hy - a * hw
    · simp only [rep]; ring
    · simp only [rep]; linear_combination hy
    · simp only [rep]; ring
    · simp only [rep]; linear_combination hw

theorem rep_det (o : Option (ZMod p)) : (rep o).1 * (rep o).2.2.2 - (rep o).2.1 * (rep o).2.2.1 = p := by
  cases o <;> simp [rep]

/-- the sum over the representatives -/
theorem heckeT_eq (f : OnePoint ℚ → OnePoint ℚ → K) (α β : OnePoint ℚ) :
    heckeT p f α β = ∑ o : Option (ZMod p), slash (rep o).1 (rep o).2.1 (rep o).2.2.1 (rep o).2.2.2 f α β := by
  rw [Fintype.sum_option]
  unfold heckeT
  congr 1
  rw [Finset.sum_range]
  have : NeZero p := ⟨hp.out.ne_zero⟩
  refine Fintype.sum_equiv (ZMod.finEquiv p).toEquiv _ _ fun j => ?_
  have e : ((ZMod.finEquiv p) j).val = (j : ℕ) := by
    cases p with
    | zero => exact absurd rfl this.ne
    | succ n => rfl
  unfold slash
  simp only [rep, RingEquiv.toEquiv_eq_coe, EquivLike.coe_coe, e]

/-- the rows of `rep o · g` lie in the line of `line o · g` -/
theorem rep_mul (o : Option (ZMod p)) {a b c d : ℤ} (hg : ((a * d - b * c : ℤ) : ZMod p) ≠ 0) :
    (((rep o).1 * a + (rep o).2.1 * c : ℤ) : ZMod p) * (line (perm a b c d o)).2 -
        (((rep o).1 * b + (rep o).2.1 * d : ℤ) : ZMod p) * (line (perm a b c d o)).1 = 0 ∧
      (((rep o).2.2.1 * a + (rep o).2.2.2 * c : ℤ) : ZMod p) * (line (perm a b c d o)).2 -
        (((rep o).2.2.1 * b + (rep o).2.2.2 * d : ℤ) : ZMod p) * (line (perm a b c d o)).1 = 0 := by
  have hv := vmul_ne hg (line_ne o)
  have e : ∀ x y : ℤ, (x : ZMod p) * (line o).2 - y * (line o).1 = 0 →
      ((x * a + y * c : ℤ) : ZMod p) * (line (perm a b c d o)).2 - ((x * b + y * d : ℤ) : ZMod p) * (line (perm a b c d o)).1 = 0 := by
    intro x y h
    apply lineOf_spec hv
    simp only [vmul]
    push_cast
    linear_combination ((a : ZMod p) * d - b * c) * h
  constructor
  · apply e
    cases o <;> simp [rep, line]
  · apply e
    cases o <;> simp [rep, line]

theorem heckeT_isInv (hf : IsInv N pf f) (hpN : IsCoprime (p : ℤ) N) : IsInv N pf (heckeT p f) := by
  have hp0 : (p : ℤ) ≠ 0 := by exact_mod_cast hp.out.ne_zero
  have key : ∀ {a b c d : ℤ} {o : Option (ZMod p)}, (a : ZMod p) * (line o).2 - b * (line o).1 = 0 →
      (c : ZMod p) * (line o).2 - d * (line o).1 = 0 → N ∣ c → a * d - b * c = p → ∀ α β : OnePoint ℚ,
      slash a b c d f α β = slash (rep o).1 (rep o).2.1 (rep o).2.2.1 (rep o).2.2.2 f α β := by
    intro a b c d o h1 h2 hc hd α β
    obtain ⟨x, y, z, w, hz, e0, e1, e2, e3, e4⟩ := divide h1 h2 hpN hc
    rw [e1, e2, e3, e4]
    exact hf.left (mul_right_cancel₀ hp0 (by rw [e0, hd, one_mul])) hz (by rw [rep_det]; exact hp0) α β
  have hN0 : ∀ o : Option (ZMod p), N ∣ (rep o).2.2.1 := by
    intro o
    cases o <;> simp [rep]
  refine ⟨fun a b c d hd hc α β => ?_, fun hpf α β => ?_⟩
  · have hg : ((a * d - b * c : ℤ) : ZMod p) ≠ 0 := by rw [hd]; simp
    rw [heckeT_eq, heckeT_eq]
    refine Fintype.sum_bijective _ (perm_bij hg) _ _ fun o => ?_
    obtain ⟨h1, h2⟩ := rep_mul o hg
    rw [← key h1 h2 (dvd_add ((hN0 o).mul_right _) (hc.mul_left _)) (by linear_combination (a * d - b * c) * rep_det o + p * hd),
      ← slash_slash (by rw [hd]; norm_num)]
    rfl
  · have hg : (((-1) * 1 - 0 * 0 : ℤ) : ZMod p) ≠ 0 := by simp
    rw [heckeT_eq, heckeT_eq, Finset.mul_sum]
    refine Fintype.sum_bijective _ (perm_bij hg) _ _ fun o => ?_
    obtain ⟨h1, h2⟩ := rep_mul o hg
    have hr := rep_det o
    have hN1 := hN0 o
    have e1 := slash_slash (f := f) (a := (rep o).1) (b := (rep o).2.1) (c := (rep o).2.2.1) (d := (rep o).2.2.2)
      (a' := -1) (b' := 0) (c' := 0) (d' := 1) (by norm_num) α β
    generalize (rep o).1 = a, (rep o).2.1 = b, (rep o).2.2.1 = c, (rep o).2.2.2 = d at *
    have hd : a * d - -b * -c = p := by linear_combination hr
    rw [← key (a := a) (b := -b) (c := -c) (d := d) (by push_cast at h1 ⊢; linear_combination -h1)
      (by push_cast at h2 ⊢; linear_combination h2) hN1.neg_right hd]
    refine (hf.sign hpf _ _).symm.trans ?_ |>.symm
    have e2 := slash_slash (f := f) (a := -1) (b := 0) (c := 0) (d := 1) (a' := a) (b' := -b) (c' := -c) (d' := d)
      (by rw [hd]; exact hp0) α β
    refine (Eq.trans ?_ e2).trans (Eq.trans ?_ (e1.symm.trans ?_))
    · rfl
    · congr 1 <;> ring
    · rfl

theorem heckeT_isModSym (hf : IsModSym N pf f) (hpN : IsCoprime (p : ℤ) N) : IsModSym N pf (heckeT p f) := by
  have := heckeT_isInv hf.toInv hpN
  refine ⟨fun α β γ => ?_, this.inv, this.sign⟩
  rw [heckeT_eq, heckeT_eq, heckeT_eq, ← Finset.sum_add_distrib]
  exact Finset.sum_congr rfl fun o _ => hf.add _ _ _

end hecke

end Eclib.Hom
