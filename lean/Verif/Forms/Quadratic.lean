import Verif.Forms.Unimod
import Mathlib.LinearAlgebra.Matrix.Determinant.Basic
import Mathlib.Tactic.Positivity

/-! # C23: binary quadratic forms -/

namespace Eclib.Forms

open Eclib.Forms.Spec

/-- `roundover(a,b)` for `b > 0`: `a/b = k + x` with `-1/2 < x ≤ 1/2` -/
theorem roundover_spec (a b : ℤ) (hb : 0 < b) :
    ∃ k, roundover a b = some k ∧ -b < 2 * (a - k * b) ∧ 2 * (a - k * b) ≤ b := by
  have hb0 : b ≠ 0 := by omega
  have h1 : 0 ≤ a.fmod b := by rw [Int.fmod_eq_emod_of_nonneg a hb.le]; exact Int.emod_nonneg a hb0
  have h2 := Int.fmod_lt_of_pos a hb
  have h3 := Int.mul_fdiv_add_fmod a b
  have h4 : (a - a.fmod b).fdiv b = a.fdiv b := by
    have : a - a.fmod b = b * a.fdiv b := by linarith
    rw [this, Int.mul_fdiv_cancel_left _ hb0]
  refine ⟨if 2 * a.fmod b > b then a.fdiv b + 1 else a.fdiv b, ?_, ?_⟩
  · simp [roundover, hb0, h4]
  · split_ifs with h
    · have : (a.fdiv b + 1) * b = b * a.fdiv b + b := by ring
      rw [this]
      constructor <;> linarith
    · have : a.fdiv b * b = b * a.fdiv b := by ring
      rw [this]
      constructor <;> linarith

theorem roundover_zero_iff {a b k : ℤ} (hb : 0 < b) (h : roundover a b = some k)
    (h1 : -b < 2 * a) (h2 : 2 * a ≤ b) : k = 0 := by
  obtain ⟨k', e, h3, h4⟩ := roundover_spec a b hb
  rw [e] at h
  obtain rfl := Option.some.inj h
  by_contra hk
  rcases lt_or_gt_of_ne hk with hk | hk
  · have : k' * b ≤ (-1) * b := mul_le_mul_of_nonneg_right (by omega) hb.le
    linarith
  · have : 1 * b ≤ k' * b := mul_le_mul_of_nonneg_right (by omega) hb.le
    linarith

/-- the function of a `quadratic` -/
def Q.fn (q : Q) : ℤ → ℤ → ℤ := quad q.a q.b q.c

/-- positive definite -/
def Q.PosDef (q : Q) : Prop := 0 < q.a ∧ q.b ^ 2 < 4 * q.a * q.c

namespace Props

/-- `eval` evaluates the form -/
theorem C23_eval (q : Q) (x z : ℤ) : q.eval x z = quad q.a q.b q.c x z := by
  simp only [Q.eval, quad]; ring

/-- `transform(m)` is the substitution by the matrix of `m`, with no condition on `m` -/
theorem C23_transform (q : Q) (m : U) : (q.transform m).fn = act q.fn m.toM := by
  funext X Z
  simp only [Q.fn, act_toM, quad, Q.transform, Q.eval]
  ring

/-- `transform` multiplies the discriminant by the square of the determinant -/
theorem C23_transform_disc (q : Q) (m : U) : (q.transform m).disc = m.det ^ 2 * q.disc := by
  simp only [Q.disc, Q.transform, Q.eval, U.det]
  ring

/-- `x_shift(a,m)`: form and matrix undergo the same substitution `[1,a;0,1]` -/
theorem C23_x_shift (q : Q) (m : U) (a : ℤ) :
    (q.xShift m a).1.fn = act q.fn !![1, a; 0, 1] ∧
      (q.xShift m a).2.toM = m.toM * !![1, a; 0, 1] ∧ (q.xShift m a).1.disc = q.disc := by
  refine ⟨?_, C22_x_shift m a, ?_⟩
  · funext X Z
    simp only [Q.fn, act, quad, Q.xShift, Matrix.of_apply, Matrix.cons_val_zero,
      Matrix.cons_val_one, Matrix.cons_val', Matrix.cons_val_fin_one]
    ring
  · simp only [Q.disc, Q.xShift]; ring

/-- `y_shift(a,m)`: form and matrix undergo the same substitution `[1,0;a,1]` -/
theorem C23_y_shift (q : Q) (m : U) (a : ℤ) :
    (q.yShift m a).1.fn = act q.fn !![1, 0; a, 1] ∧
      (q.yShift m a).2.toM = m.toM * !![1, 0; a, 1] ∧ (q.yShift m a).1.disc = q.disc := by
  refine ⟨?_, C22_y_shift m a, ?_⟩
  · funext X Z
    simp only [Q.fn, act, quad, Q.yShift, Matrix.of_apply, Matrix.cons_val_zero,
      Matrix.cons_val_one, Matrix.cons_val', Matrix.cons_val_fin_one]
    ring
  · simp only [Q.disc, Q.yShift]; ring

/-- `invert(m)`: form and matrix undergo the same substitution `[0,-1;1,0]` -/
theorem C23_invert (q : Q) (m : U) :
    (q.invert m).1.fn = act q.fn !![0, -1; 1, 0] ∧
      (q.invert m).2.toM = m.toM * !![0, -1; 1, 0] ∧ (q.invert m).1.disc = q.disc := by
  refine ⟨?_, C22_invert m, ?_⟩
  · funext X Z
    simp only [Q.fn, act, quad, Q.invert, Matrix.of_apply, Matrix.cons_val_zero,
      Matrix.cons_val_one, Matrix.cons_val', Matrix.cons_val_fin_one]
    ring
  · simp only [Q.disc, Q.invert]; ring

end Props

open Props

/-- `s` was obtained from `s0` by a proper substitution recorded in the matrix -/
def Q.Via (s0 s : Q × U) : Prop :=
  ∃ t : M2, t.det = 1 ∧ s.2.toM = s0.2.toM * t ∧ s.1.fn = act s0.1.fn t ∧ s.1.disc = s0.1.disc

theorem Q.via_refl (s : Q × U) : Q.Via s s :=
  ⟨1, by simp, by simp, by rw [act_one], rfl⟩

theorem Q.via_trans {r s t : Q × U} (h1 : Q.Via r s) (h2 : Q.Via s t) : Q.Via r t := by
  obtain ⟨x, a1, a2, a3, a4⟩ := h1
  obtain ⟨y, b1, b2, b3, b4⟩ := h2
  refine ⟨x * y, by rw [Matrix.det_mul, a1, b1]; rfl, ?_, ?_, by rw [b4, a4]⟩
  · rw [b2, a2, mul_assoc]
  · rw [b3, a3, act_mul]

theorem Q.via_xShift (q : Q) (m : U) (a : ℤ) : Q.Via (q, m) (q.xShift m a) := by
  obtain ⟨h1, h2, h3⟩ := C23_x_shift q m a
  exact ⟨_, by simp [Matrix.det_fin_two], h2, h1, h3⟩

theorem Q.via_invert (q : Q) (m : U) : Q.Via (q, m) (q.invert m) := by
  obtain ⟨h1, h2, h3⟩ := C23_invert q m
  exact ⟨_, by simp [Matrix.det_fin_two], h2, h1, h3⟩

theorem Q.disc_neg_of_posDef {q : Q} (h : q.PosDef) : q.disc < 0 := by
  have := h.2
  simp only [Q.disc]; linarith [sq q.b]

theorem Q.posDef_of_disc {q : Q} (ha : 0 < q.a) (h : q.disc < 0) : q.PosDef := by
  refine ⟨ha, ?_⟩
  simp only [Q.disc] at h; linarith [sq q.b]

theorem Q.posDef_c {q : Q} (h : q.PosDef) : 0 < q.c := by
  obtain ⟨h1, h2⟩ := h
  by_contra hc
  have : 4 * q.a * q.c ≤ 0 := by nlinarith
  linarith [sq_nonneg q.b]

/-- after a shift by `roundover(-b,2a)` the middle coefficient lies in `[-a,a)` -/
theorem Q.shift_range (q : Q) (m : U) (ha : 0 < q.a) :
    ∃ k, roundover (-q.b) (2 * q.a) = some k ∧ (q.xShift m k).1.a = q.a ∧
      -q.a ≤ (q.xShift m k).1.b ∧ (q.xShift m k).1.b < q.a := by
  obtain ⟨k, e, h1, h2⟩ := roundover_spec (-q.b) (2 * q.a) (by omega)
  refine ⟨k, e, rfl, ?_, ?_⟩ <;> simp only [Q.xShift]
  · have : 2 * (-q.b - k * (2 * q.a)) = -2 * (q.b + 2 * (k * q.a)) := by ring
    omega
  · have : 2 * (-q.b - k * (2 * q.a)) = -2 * (q.b + 2 * (k * q.a)) := by ring
    omega

theorem Q.reduceLoop_spec (n : ℕ) : ∀ (q : Q) (m : U), q.PosDef → -q.a ≤ q.b → q.b < q.a →
    q.a.toNat ≤ n → ∃ r, (∀ fuel, n < fuel → Q.reduceLoop fuel (q, m) = some r) ∧
      Q.Via (q, m) r ∧ -r.1.a ≤ r.1.b ∧ r.1.b < r.1.a ∧ r.1.a ≤ r.1.c := by
  induction n with
  | zero => intro q m hq _ _ hn; have := hq.1; omega
  | succ n ih =>
    intro q m hq hb1 hb2 hn
    by_cases hac : q.a ≤ q.c
    · refine ⟨(q, m), ?_, Q.via_refl _, hb1, hb2, hac⟩
      intro fuel hf
      obtain ⟨k, rfl⟩ := Nat.exists_eq_succ_of_ne_zero (by omega : fuel ≠ 0)
      simp [Q.reduceLoop, hac]
    · have hc := Q.posDef_c hq
      have hinv : (q.invert m).1.a = q.c := rfl
      obtain ⟨k, e, h1, h2, h3⟩ := Q.shift_range (q.invert m).1 (q.invert m).2 (by rw [hinv]; exact hc)
      have hv : Q.Via (q, m) ((q.invert m).1.xShift (q.invert m).2 k) :=
        Q.via_trans (Q.via_invert q m) (Q.via_xShift _ _ _)
      have hpd : ((q.invert m).1.xShift (q.invert m).2 k).1.PosDef := by
        apply Q.posDef_of_disc
        · rw [h1, hinv]; exact hc
        · obtain ⟨_, _, _, _, hd⟩ := hv
          rw [hd]; exact Q.disc_neg_of_posDef hq
      obtain ⟨r, hr, hvr, hrest⟩ := ih ((q.invert m).1.xShift (q.invert m).2 k).1
        ((q.invert m).1.xShift (q.invert m).2 k).2 hpd (by rw [h1]; exact h2)
        (by rw [h1]; exact h3) (by rw [h1, hinv]; omega)
      refine ⟨r, ?_, Q.via_trans hv hvr, hrest⟩
      intro fuel hf
      obtain ⟨j, rfl⟩ := Nat.exists_eq_succ_of_ne_zero (by omega : fuel ≠ 0)
      simp only [Q.reduceLoop, hac, if_false, e, Option.bind_some]
      exact hr j (by omega)

namespace Props

/-- `reduce(m)` of a positive definite form terminates.  The result is `-a ≤ b < a ≤ c`, has the
same discriminant, and is the original form with a proper substitution `t`; `m` is multiplied on
the right by the same `t`. -/
theorem C23_reduce (q : Q) (m : U) (ha : 0 < q.a) (hd : q.b ^ 2 < 4 * q.a * q.c) :
    ∃ (N : ℕ) (q' : Q) (m' : U), (∀ fuel, N ≤ fuel → q.reduce fuel m = some (q', m')) ∧
      -q'.a ≤ q'.b ∧ q'.b < q'.a ∧ q'.a ≤ q'.c ∧
      q'.b ^ 2 - 4 * q'.a * q'.c = q.b ^ 2 - 4 * q.a * q.c ∧
      ∃ t : M2, t.det = 1 ∧ m'.toM = m.toM * t ∧ quad q'.a q'.b q'.c = act (quad q.a q.b q.c) t := by
  have hs : q.signStep = q := by
    simp [Q.signStep, not_lt.mpr ha.le]
  obtain ⟨k, e, h1, h2, h3⟩ := Q.shift_range q m ha
  have hv := Q.via_xShift q m k
  have hpd : (q.xShift m k).1.PosDef := by
    apply Q.posDef_of_disc
    · rw [h1]; exact ha
    · obtain ⟨_, _, _, _, hd'⟩ := hv
      rw [hd']; exact Q.disc_neg_of_posDef ⟨ha, hd⟩
  obtain ⟨r, hr, hvr, r1, r2, r3⟩ := Q.reduceLoop_spec (q.xShift m k).1.a.toNat
    (q.xShift m k).1 (q.xShift m k).2 hpd (by rw [h1]; exact h2) (by rw [h1]; exact h3) le_rfl
  obtain ⟨t, t1, t2, t3, t4⟩ := Q.via_trans hv hvr
  refine ⟨(q.xShift m k).1.a.toNat + 1, r.1, r.2, ?_, r1, r2, r3, ?_, t, t1, t2, t3⟩
  · intro fuel hf
    simp only [Q.reduce, hs, e, Option.bind_some]
    exact hr fuel (by omega)
  · simp only [Q.disc] at t4
    linarith [sq r.1.b, sq q.b]

example : 0 < (Q.mk 5 8 4).a ∧ (Q.mk 5 8 4).b ^ 2 < 4 * (Q.mk 5 8 4).a * (Q.mk 5 8 4).c := by
  decide
example : (Q.mk 50 81 34).reduce 5 U.one = some (⟨3, 1, 20⟩, ⟨-1, 2, 1, -3⟩) := by decide

/-- For a negative definite form the code reduces `-F` but does not tell `m`: the result is minus
the original form with the recorded substitution. -/
theorem C23_reduce_negative (q : Q) (m : U) (ha : q.a < 0) (hd : q.b ^ 2 < 4 * q.a * q.c) :
    ∃ (N : ℕ) (q' : Q) (m' : U), (∀ fuel, N ≤ fuel → q.reduce fuel m = some (q', m')) ∧
      -q'.a ≤ q'.b ∧ q'.b < q'.a ∧ q'.a ≤ q'.c ∧
      ∃ t : M2, t.det = 1 ∧ m'.toM = m.toM * t ∧
        ∀ X Z, quad q'.a q'.b q'.c X Z = -act (quad q.a q.b q.c) t X Z := by
  obtain ⟨N, q', m', h1, h2, h3, h4, _, t, t1, t2, t3⟩ :=
    C23_reduce ⟨-q.a, -q.b, -q.c⟩ m (by simpa using ha) (by simpa using hd)
  refine ⟨N, q', m', ?_, h2, h3, h4, t, t1, t2, ?_⟩
  · intro fuel hf
    have := h1 fuel hf
    have e1 : q.signStep = ⟨-q.a, -q.b, -q.c⟩ := by simp [Q.signStep, ha]
    have e2 : (Q.mk (-q.a) (-q.b) (-q.c)).signStep = ⟨-q.a, -q.b, -q.c⟩ := by
      simp [Q.signStep, not_lt.mpr ha.le]
    simp only [Q.reduce, e1]
    simp only [Q.reduce, e2] at this
    exact this
  · intro X Z
    rw [t3]
    simp only [act, quad]
    ring

example : (Q.mk (-5) 8 (-4)).a < 0 ∧
    (Q.mk (-5) 8 (-4)).b ^ 2 < 4 * (Q.mk (-5) 8 (-4)).a * (Q.mk (-5) 8 (-4)).c := by decide

/-- A form with leading coefficient 0 makes `reduce` divide by zero. -/
theorem C23_reduce_zero (q : Q) (m : U) (h : q.a = 0) (fuel : ℕ) : q.reduce fuel m = none := by
  simp [Q.reduce, Q.signStep, h, roundover]

example : (Q.mk 0 3 1).a = 0 := rfl

/-- `resultant` is the determinant of the Sylvester matrix -/
theorem C23_resultant (p q : Q) :
    Q.resultant p q = (!![p.a, p.b, p.c, 0; 0, p.a, p.b, p.c; q.a, q.b, q.c, 0;
      0, q.a, q.b, q.c] : Matrix (Fin 4) (Fin 4) ℤ).det := by
  simp [Matrix.det_succ_row_zero, Fin.sum_univ_succ, Fin.succAbove, Q.resultant]
  ring

/-- The resultant is invariant under a simultaneous proper substitution. -/
theorem C23_resultant_invariant (p q : Q) (m : U) :
    Q.resultant (p.transform m) (q.transform m) = m.det ^ 4 * Q.resultant p q := by
  simp only [Q.resultant, Q.transform, Q.eval, U.det]
  ring

end Props

end Eclib.Forms
