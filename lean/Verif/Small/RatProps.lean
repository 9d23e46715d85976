import Verif.Small.RatModel
import Mathlib.Data.Rat.Floor
import Mathlib.Algebra.Order.Floor.Ring
import Mathlib.Tactic.FieldSimp

/-!
# Property theorems for rationals (C10, C11)
-/

namespace Eclib.Spec

open Eclib.Ratl in
/-- The value of a computation in the field of rational numbers; `none` if it contains a division
by zero. -/
def ratValue : Expr → Option ℚ
  | .lit n d => if d = 0 then none else some ((n : ℚ) / d)
  | .neg e => (ratValue e).map (- ·)
  | .recip e => (ratValue e).bind fun x => if x = 0 then none else some x⁻¹
  | .add e f | .addAssign e f => (ratValue e).bind fun x => (ratValue f).map fun y => x + y
  | .addIL k e => (ratValue e).map fun x => (k : ℚ) + x
  | .addIR e k | .addAssignI e k => (ratValue e).map fun x => x + (k : ℚ)
  | .sub e f | .subAssign e f => (ratValue e).bind fun x => (ratValue f).map fun y => x - y
  | .subIL k e => (ratValue e).map fun x => (k : ℚ) - x
  | .subIR e k | .subAssignI e k => (ratValue e).map fun x => x - (k : ℚ)
  | .mul e f | .mulAssign e f => (ratValue e).bind fun x => (ratValue f).map fun y => x * y
  | .mulI e k | .mulAssignI e k => (ratValue e).map fun x => x * (k : ℚ)
  | .div e f => (ratValue e).bind fun x => (ratValue f).bind fun y =>
      if y = 0 then none else some (x / y)
  | .divI e k | .divAssignI e k => (ratValue e).bind fun x =>
      if k = 0 then none else some (x / (k : ℚ))
  | .divIL k e => (ratValue e).bind fun x => if x = 0 then none else some ((k : ℚ) / x)

end Eclib.Spec

namespace Eclib.Ratl.Props

open Eclib.Ratl

/-- Lowest terms with positive denominator. -/
def Canonical (r : R) : Prop := 0 < r.d ∧ Int.gcd r.n r.d = 1

/-- The rational number represented. -/
def toQ (r : R) : ℚ := (r.n : ℚ) / r.d

theorem quo_dvd (big : Bool) {a g : Int} (hg : g ≠ 0) (h : g ∣ a) : quo big a g * g = a := by
  obtain ⟨k, rfl⟩ := h
  unfold quo
  split_ifs
  · rw [Int.mul_fdiv_cancel_left _ hg]; ring
  · rw [Int.mul_tdiv_cancel_left _ hg]; ring

theorem cancel_spec (big : Bool) (n d : Int) (hd : d ≠ 0) :
    Canonical (cancel big ⟨n, d⟩) ∧ toQ (cancel big ⟨n, d⟩) = (n : ℚ) / d := by
  have hg0 : Int.gcd n d ≠ 0 := fun h => hd (Int.gcd_eq_zero_iff.mp h).2
  -- after the division
  have key : ∃ n' d' : Int, (if Arith.gcd n d > 1 then
      (⟨quo big n (Arith.gcd n d), quo big d (Arith.gcd n d)⟩ : R) else ⟨n, d⟩) = ⟨n', d'⟩ ∧
      Int.gcd n' d' = 1 ∧ d' ≠ 0 ∧ (n' : ℚ) / d' = (n : ℚ) / d := by
    rw [Arith.gcd_eq]
    split_ifs with h
    · have hz : (Int.gcd n d : Int) ≠ 0 := by exact_mod_cast hg0
      have h1 := quo_dvd big hz (Int.gcd_dvd_left n d)
      have h2 := quo_dvd big hz (Int.gcd_dvd_right n d)
      set n' := quo big n (Int.gcd n d : Int)
      set d' := quo big d (Int.gcd n d : Int)
      refine ⟨n', d', rfl, ?_, ?_, ?_⟩
      · have h3 : Int.gcd (n' * Int.gcd n d) (d' * Int.gcd n d) = Int.gcd n d := by rw [h1, h2]
        rw [Int.gcd_mul_right, Int.natAbs_natCast] at h3
        exact Nat.eq_of_mul_eq_mul_right (Nat.pos_of_ne_zero hg0) (by rw [h3, one_mul])
      · rintro h0; rw [h0, zero_mul] at h2; exact hd h2.symm
      · have hgq : ((Int.gcd n d : Int) : ℚ) ≠ 0 := by exact_mod_cast hz
        have e1 : (n : ℚ) = n' * ((Int.gcd n d : Int) : ℚ) := by exact_mod_cast h1.symm
        have e2 : (d : ℚ) = d' * ((Int.gcd n d : Int) : ℚ) := by exact_mod_cast h2.symm
        rw [e1, e2, mul_div_mul_right _ _ hgq]
    · exact ⟨n, d, rfl, by omega, hd, rfl⟩
  obtain ⟨n', d', e, h1, h2, h3⟩ := key
  unfold cancel
  simp only
  rw [e]
  simp only
  split_ifs with h
  · refine ⟨⟨by simp only; omega, by simpa using h1⟩, ?_⟩
    rw [← h3, toQ]
    push_cast
    rw [neg_div_neg_eq]
  · exact ⟨⟨by simp only; omega, h1⟩, h3⟩

theorem mk_spec (big : Bool) (n d : Int) (hd : d ≠ 0) :
    Canonical (Ratl.mk big n d) ∧ toQ (Ratl.mk big n d) = (n : ℚ) / d := cancel_spec big n d hd

/-- Consequence for a computed numerator/denominator: enough to know the value. -/
theorem mk_spec' (big : Bool) (n d : Int) (q : ℚ) (hd : d ≠ 0) (hq : (n : ℚ) / d = q) :
    Canonical (Ratl.mk big n d) ∧ toQ (Ratl.mk big n d) = q := by
  rw [← hq]; exact mk_spec big n d hd

theorem add_int_canonical (r : R) (k : Int) (h : Canonical r) :
    Canonical ⟨r.n + r.d * k, r.d⟩ ∧ toQ ⟨r.n + r.d * k, r.d⟩ = toQ r + k := by
  refine ⟨⟨h.1, ?_⟩, ?_⟩
  · simp only
    rw [Int.gcd_add_mul_left_left]
    exact h.2
  · have : (r.d : ℚ) ≠ 0 := by exact_mod_cast h.1.ne'
    simp only [toQ]
    push_cast
    field_simp

/-- C10: every computation without division by zero yields a canonical fraction whose value is the
exact value in ℚ (both `rational` and `bigrational`). -/
theorem C10_exact (big : Bool) (e : Expr) (q : ℚ) (h : Spec.ratValue e = some q) :
    Canonical (e.run big) ∧ toQ (e.run big) = q := by
  have dne : ∀ r : R, Canonical r → (r.d : ℚ) ≠ 0 := fun r hr => by exact_mod_cast hr.1.ne'
  have nne : ∀ r : R, Canonical r → toQ r ≠ 0 → r.n ≠ 0 := fun r _ h h0 => h (by simp [toQ, h0])
  induction e generalizing q with
  | lit n d =>
    simp only [Spec.ratValue] at h
    split_ifs at h with hd
    cases h
    exact mk_spec big n d hd
  | neg e ih =>
    simp only [Spec.ratValue, Option.map_eq_some_iff] at h
    obtain ⟨x, hx, rfl⟩ := h
    obtain ⟨c, v⟩ := ih x hx
    refine mk_spec' big _ _ _ c.1.ne' ?_
    rw [← v, toQ]; push_cast; ring
  | recip e ih =>
    simp only [Spec.ratValue, Option.bind_eq_some_iff] at h
    obtain ⟨x, hx, h⟩ := h
    split_ifs at h with h0
    cases h
    obtain ⟨c, v⟩ := ih x hx
    refine mk_spec' big _ _ _ (nne _ c (by rw [v]; exact h0)) ?_
    rw [← v, toQ, inv_div]
  | add e f ihe ihf | addAssign e f ihe ihf =>
    simp only [Spec.ratValue, Option.bind_eq_some_iff, Option.map_eq_some_iff] at h
    obtain ⟨x, hx, y, hy, rfl⟩ := h
    obtain ⟨c1, v1⟩ := ihe x hx
    obtain ⟨c2, v2⟩ := ihf y hy
    refine mk_spec' big _ _ _ (mul_ne_zero c1.1.ne' c2.1.ne') ?_
    have := dne _ c1
    have := dne _ c2
    rw [← v1, ← v2, toQ, toQ]; push_cast; field_simp
  | addIL k e ih =>
    simp only [Spec.ratValue, Option.map_eq_some_iff] at h
    obtain ⟨x, hx, rfl⟩ := h
    obtain ⟨c, v⟩ := ih x hx
    refine mk_spec' big _ _ _ c.1.ne' ?_
    have := dne _ c
    rw [← v, toQ]; push_cast; field_simp
  | addIR e k ih =>
    simp only [Spec.ratValue, Option.map_eq_some_iff] at h
    obtain ⟨x, hx, rfl⟩ := h
    obtain ⟨c, v⟩ := ih x hx
    refine mk_spec' big _ _ _ c.1.ne' ?_
    have := dne _ c
    rw [← v, toQ]; push_cast; field_simp
  | sub e f ihe ihf | subAssign e f ihe ihf =>
    simp only [Spec.ratValue, Option.bind_eq_some_iff, Option.map_eq_some_iff] at h
    obtain ⟨x, hx, y, hy, rfl⟩ := h
    obtain ⟨c1, v1⟩ := ihe x hx
    obtain ⟨c2, v2⟩ := ihf y hy
    refine mk_spec' big _ _ _ (mul_ne_zero c1.1.ne' c2.1.ne') ?_
    have := dne _ c1
    have := dne _ c2
    rw [← v1, ← v2, toQ, toQ]; push_cast; field_simp
  | subIL k e ih =>
    simp only [Spec.ratValue, Option.map_eq_some_iff] at h
    obtain ⟨x, hx, rfl⟩ := h
    obtain ⟨c, v⟩ := ih x hx
    refine mk_spec' big _ _ _ c.1.ne' ?_
    have := dne _ c
    rw [← v, toQ]; push_cast; field_simp
  | subIR e k ih =>
    simp only [Spec.ratValue, Option.map_eq_some_iff] at h
    obtain ⟨x, hx, rfl⟩ := h
    obtain ⟨c, v⟩ := ih x hx
    refine mk_spec' big _ _ _ c.1.ne' ?_
    have := dne _ c
    rw [← v, toQ]; push_cast; field_simp
  | mul e f ihe ihf | mulAssign e f ihe ihf =>
    simp only [Spec.ratValue, Option.bind_eq_some_iff, Option.map_eq_some_iff] at h
    obtain ⟨x, hx, y, hy, rfl⟩ := h
    obtain ⟨c1, v1⟩ := ihe x hx
    obtain ⟨c2, v2⟩ := ihf y hy
    refine mk_spec' big _ _ _ (mul_ne_zero c1.1.ne' c2.1.ne') ?_
    rw [← v1, ← v2, toQ, toQ]; push_cast; rw [div_mul_div_comm]
  | mulI e k ih | mulAssignI e k ih =>
    simp only [Spec.ratValue, Option.map_eq_some_iff] at h
    obtain ⟨x, hx, rfl⟩ := h
    obtain ⟨c, v⟩ := ih x hx
    refine mk_spec' big _ _ _ c.1.ne' ?_
    rw [← v, toQ]; push_cast; ring
  | div e f ihe ihf =>
    simp only [Spec.ratValue, Option.bind_eq_some_iff] at h
    obtain ⟨x, hx, y, hy, h⟩ := h
    split_ifs at h with h0
    cases h
    obtain ⟨c1, v1⟩ := ihe x hx
    obtain ⟨c2, v2⟩ := ihf y hy
    refine mk_spec' big _ _ _ (mul_ne_zero c1.1.ne' (nne _ c2 (by rw [v2]; exact h0))) ?_
    rw [← v1, ← v2, toQ, toQ]; push_cast; rw [div_div_div_eq]
  | divI e k ih | divAssignI e k ih =>
    simp only [Spec.ratValue, Option.bind_eq_some_iff] at h
    obtain ⟨x, hx, h⟩ := h
    split_ifs at h with h0
    cases h
    obtain ⟨c, v⟩ := ih x hx
    refine mk_spec' big _ _ _ (mul_ne_zero c.1.ne' h0) ?_
    rw [← v, toQ]; push_cast; rw [div_div]
  | divIL k e ih =>
    simp only [Spec.ratValue, Option.bind_eq_some_iff] at h
    obtain ⟨x, hx, h⟩ := h
    split_ifs at h with h0
    cases h
    obtain ⟨c, v⟩ := ih x hx
    refine mk_spec' big _ _ _ (nne _ c (by rw [v]; exact h0)) ?_
    rw [← v, toQ]; push_cast; rw [div_div_eq_mul_div]; ring
  | addAssignI e k ih =>
    simp only [Spec.ratValue, Option.map_eq_some_iff] at h
    obtain ⟨x, hx, rfl⟩ := h
    obtain ⟨c, v⟩ := ih x hx
    have := add_int_canonical _ k c
    rw [v] at this
    exact this
  | subAssignI e k ih =>
    simp only [Spec.ratValue, Option.map_eq_some_iff] at h
    obtain ⟨x, hx, rfl⟩ := h
    obtain ⟨c, v⟩ := ih x hx
    have := add_int_canonical _ (-k) c
    rw [v] at this
    have e1 : (e.run big).n + (e.run big).d * -k = (e.run big).n - (e.run big).d * k := by ring
    rw [e1] at this
    push_cast at this
    rw [← sub_eq_add_neg] at this
    exact this

example : Spec.ratValue (.subAssign (.lit 3 (-6)) (.div (.lit 1 2) (.lit 5 4))) = some (-9 / 10) := by
  norm_num [Spec.ratValue]
example : Expr.run false (.subAssign (.lit 3 (-6)) (.div (.lit 1 2) (.lit 5 4))) = ⟨-9, 10⟩ := by
  decide +kernel

/-- C10: `==` decides equality of values, and canonical fractions are equal as values only if they
are identical. -/
theorem C10_eq (r s : R) (hr : Canonical r) (hs : Canonical s) :
    (eq r s = true ↔ toQ r = toQ s) ∧ (toQ r = toQ s → r = s) := by
  have h1 : (r.d : ℚ) ≠ 0 := by exact_mod_cast hr.1.ne'
  have h2 : (s.d : ℚ) ≠ 0 := by exact_mod_cast hs.1.ne'
  have hiff : toQ r = toQ s ↔ r.n * s.d = s.n * r.d := by
    rw [toQ, toQ, div_eq_div_iff h1 h2]; exact_mod_cast Iff.rfl
  refine ⟨by rw [hiff]; simp [eq], fun h => ?_⟩
  have he := hiff.mp h
  have d1 : r.d ∣ s.d := by
    have : r.d ∣ r.n * s.d := ⟨s.n, by rw [he]; ring⟩
    exact Int.dvd_of_dvd_mul_right_of_gcd_one this (by rw [Int.gcd_comm]; exact hr.2)
  have d2 : s.d ∣ r.d := by
    have : s.d ∣ s.n * r.d := ⟨r.n, by rw [← he]; ring⟩
    exact Int.dvd_of_dvd_mul_right_of_gcd_one this (by rw [Int.gcd_comm]; exact hs.2)
  have hd : r.d = s.d := Int.dvd_antisymm hr.1.le hs.1.le d1 d2
  have hn : r.n = s.n := by
    rw [hd] at he; exact mul_right_cancel₀ hs.1.ne' he
  cases r; cases s; simp_all

/-- C10: the order relations of `bigrational`. -/
theorem C10_order (r s : R) (hr : Canonical r) (hs : Canonical s) :
    (lt r s = true ↔ toQ r < toQ s) ∧ (gt r s = true ↔ toQ r > toQ s) := by
  have h1 : (0 : ℚ) < r.d := by exact_mod_cast hr.1
  have h2 : (0 : ℚ) < s.d := by exact_mod_cast hs.1
  constructor
  · rw [toQ, toQ, div_lt_div_iff₀ h1 h2]
    simp only [lt, decide_eq_true_eq]
    exact_mod_cast Iff.rfl
  · rw [gt_iff_lt, toQ, toQ, div_lt_div_iff₀ h2 h1]
    simp only [gt, decide_eq_true_eq, gt_iff_lt]
    exact_mod_cast Iff.rfl

example : Canonical ⟨-9, 10⟩ ∧ Canonical ⟨3, 4⟩ := by unfold Canonical; decide

/-- C10: outside the field: a zero denominator with non-zero numerator gives the point at infinity
`1/0` or `-1/0`. -/
theorem C10_infinity (big : Bool) (n : Int) (hn : n ≠ 0) :
    Ratl.mk big n 0 = ⟨1, 0⟩ ∨ Ratl.mk big n 0 = ⟨-1, 0⟩ := by
  unfold Ratl.mk cancel
  rw [Arith.gcd_eq]
  simp only [Int.gcd_zero_right]
  by_cases h : (n.natAbs : Int) > 1
  · rw [if_pos h]
    have h2 := quo_dvd big (a := n) (g := n.natAbs) (by omega) (Int.natAbs_dvd.mpr dvd_rfl)
    have h3 := quo_dvd big (a := 0) (g := n.natAbs) (by omega) (dvd_zero _)
    have e3 : quo big 0 (n.natAbs : Int) = 0 := by
      rcases mul_eq_zero.mp h3 with h | h
      · exact h
      · omega
    simp only [e3]
    rw [if_neg (by decide)]
    rcases Int.natAbs_eq n with hh | hh
    · left
      have e : quo big n (n.natAbs : Int) * n.natAbs = 1 * n.natAbs := by rw [h2]; omega
      rw [mul_right_cancel₀ (by omega) e]
    · right
      have e : quo big n (n.natAbs : Int) * n.natAbs = -1 * n.natAbs := by rw [h2]; omega
      rw [mul_right_cancel₀ (by omega) e]
  · rw [if_neg h]
    simp only [lt_self_iff_false, if_false]
    have : n = 1 ∨ n = -1 := by omega
    rcases this with rfl | rfl <;> simp

example : Ratl.mk false (-6) 0 = ⟨-1, 0⟩ := by decide +kernel

/-! ## C11: floor and ceil -/

theorem floor_toQ (r : R) (hd : 0 < r.d) : ⌊toQ r⌋ = r.n / r.d := by
  have hq : (0 : ℚ) < r.d := by exact_mod_cast hd
  rw [Int.floor_eq_iff, toQ, le_div_iff₀ hq, div_lt_iff₀ hq]
  have h1 := Int.emod_add_mul_ediv r.n r.d
  have h2 := Int.emod_nonneg r.n hd.ne'
  have h3 := Int.emod_lt_of_pos r.n hd
  constructor
  · have : r.n / r.d * r.d ≤ r.n := by linarith [mul_comm r.d (r.n / r.d)]
    exact_mod_cast this
  · have : r.n < (r.n / r.d + 1) * r.d := by linarith [mul_comm r.d (r.n / r.d)]
    exact_mod_cast this

/-- A canonical fraction which is not an integer: `ceil = floor + 1`. -/
theorem ceil_toQ (r : R) (hr : Canonical r) :
    ⌈toQ r⌉ = if r.d = 1 then r.n else 1 + r.n / r.d := by
  have hd := hr.1
  have hq : (0 : ℚ) < r.d := by exact_mod_cast hd
  split_ifs with h
  · rw [toQ, h]; simp
  · rw [Int.ceil_eq_iff, toQ, lt_div_iff₀ hq, div_le_iff₀ hq]
    have h1 := Int.emod_add_mul_ediv r.n r.d
    have h2 := Int.emod_nonneg r.n hd.ne'
    have h3 := Int.emod_lt_of_pos r.n hd
    have h4 : r.n % r.d ≠ 0 := by
      intro h0
      have hdv := Int.dvd_of_emod_eq_zero h0
      have := Int.gcd_eq_right hd.le hdv
      rw [hr.2] at this
      exact h (by exact_mod_cast this.symm)
    constructor
    · have : (1 + r.n / r.d - 1) * r.d < r.n := by
        have : 0 < r.n % r.d := by omega
        linarith [mul_comm r.d (r.n / r.d)]
      exact_mod_cast this
    · have : r.n ≤ (1 + r.n / r.d) * r.d := by linarith [mul_comm r.d (r.n / r.d)]
      exact_mod_cast this

theorem exact_part (a b : Int) (hb : b ≠ 0) : (a - a % b) / b = a / b := by
  have := Int.emod_add_mul_ediv a b
  have e : a - a % b = b * (a / b) := by linarith
  rw [e, Int.mul_ediv_cancel_left _ hb]

/-- C11 for `bigrational`: `floor` and `ceil` are the mathematical ones. -/
theorem C11_floor_ceil_big (r : R) (hr : Canonical r) :
    floor true r = ⌊toQ r⌋ ∧ ceil true r = ⌈toQ r⌉ := by
  have hd := hr.1
  have hf : quo true (r.n - rem true r.n r.d) r.d = r.n / r.d := by
    simp only [quo, rem, if_true]
    rw [Int.fmod_eq_emod_of_nonneg _ hd.le, Int.fdiv_eq_ediv_of_nonneg _ hd.le,
      exact_part _ _ hd.ne']
  rw [floor_toQ r hd, ceil_toQ r hr, floor, ceil, hf]
  exact ⟨rfl, rfl⟩

example : floor true ⟨-3, 2⟩ = -2 ∧ ceil true ⟨-3, 2⟩ = -1 ∧ ceil true ⟨7, 2⟩ = 4 := by decide +kernel

/-- C11 for `rational`: right for non-negative values only.  Missing: negative values, for which
the statement is false (next theorem). -/
theorem C11_floor_ceil_partial (r : R) (hr : Canonical r) (h0 : 0 ≤ r.n) :
    floor false r = ⌊toQ r⌋ ∧ ceil false r = ⌈toQ r⌉ := by
  have hd := hr.1
  have hf : quo false (r.n - rem false r.n r.d) r.d = r.n / r.d := by
    simp only [quo, rem, Bool.false_eq_true, if_false]
    have hnn : 0 ≤ r.n - r.n % r.d := by
      have := Int.emod_add_mul_ediv r.n r.d
      have := mul_nonneg hd.le (Int.ediv_nonneg h0 hd.le)
      omega
    rw [Int.tmod_eq_emod_of_nonneg h0, Int.tdiv_eq_ediv_of_nonneg hnn, exact_part _ _ hd.ne']
  rw [floor_toQ r hd, ceil_toQ r hr, floor, ceil, hf]
  exact ⟨rfl, rfl⟩

/-- The exact behaviour of the `long` version on negative non-integers: both functions are one too
large. -/
theorem C11_floor_ceil_negative (r : R) (hr : Canonical r) (h0 : r.n < 0) (h1 : r.d ≠ 1) :
    floor false r = ⌊toQ r⌋ + 1 ∧ ceil false r = ⌈toQ r⌉ + 1 := by
  have hd := hr.1
  have h4 : ¬ r.d ∣ r.n := by
    intro hdv
    have := Int.gcd_eq_right hd.le hdv
    rw [hr.2] at this
    exact h1 (by exact_mod_cast this.symm)
  have hf : quo false (r.n - rem false r.n r.d) r.d = r.n / r.d + 1 := by
    simp only [quo, rem, Bool.false_eq_true, if_false]
    have e : r.n - r.n.tmod r.d = r.d * r.n.tdiv r.d := by
      have := Int.tmod_add_mul_tdiv r.n r.d; linarith
    rw [e, Int.mul_tdiv_cancel_left _ hd.ne', Int.tdiv_eq_ediv]
    rw [if_neg (by push Not; exact ⟨h0, h4⟩), Int.sign_eq_one_of_pos hd]
  rw [floor_toQ r hd, ceil_toQ r hr, floor, ceil, hf, if_neg h1, if_neg h1]
  exact ⟨rfl, by ring⟩

/-- The full statement fails for `rational`: `floor(-3/2)` is `-1`, `ceil(-3/2)` is `0`. -/
theorem C11_floor_ceil_counterexample :
    ¬ (∀ r, Canonical r → floor false r = ⌊toQ r⌋) ∧
    ¬ (∀ r, Canonical r → ceil false r = ⌈toQ r⌉) := by
  have hc : Canonical ⟨-3, 2⟩ := by unfold Canonical; decide
  have h := C11_floor_ceil_negative ⟨-3, 2⟩ hc (by decide) (by decide)
  exact ⟨fun h' => by have := h' _ hc; omega, fun h' => by have := h' _ hc; omega⟩

end Eclib.Ratl.Props
