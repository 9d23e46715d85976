import Verif.Forms.Quadratic

/-! # C24: binary cubic forms -/

namespace Eclib.Forms

open Eclib.Forms.Spec

/-- the function of a `cubic` -/
def C.fn (f : C) : ℤ → ℤ → ℤ := cub f.a f.b f.c f.d

/-- the Hessian as a quadratic form -/
def C.hess (f : C) : Q := ⟨f.pSemi, f.qSemi, f.rSemi⟩

theorem C.ext_fn {f g : C} (h : f.fn = g.fn) : f = g := by
  have h1 := congrFun (congrFun h 1) 0
  have h2 := congrFun (congrFun h 0) 1
  have h3 := congrFun (congrFun h 1) 1
  have h4 := congrFun (congrFun h 1) (-1)
  simp [C.fn, cub] at h1 h2 h3 h4
  ext
  · exact h1
  · omega
  · omega
  · exact h2

theorem Q.ext_fn {f g : Q} (h : f.fn = g.fn) : f = g := by
  have h1 := congrFun (congrFun h 1) 0
  have h2 := congrFun (congrFun h 0) 1
  have h3 := congrFun (congrFun h 1) 1
  simp [Q.fn, quad] at h1 h2 h3
  ext
  · exact h1
  · omega
  · exact h2

namespace Props

/-- `eval` evaluates the form -/
theorem C24_eval (f : C) (x z : ℤ) : f.eval x z = cub f.a f.b f.c f.d x z := by
  simp only [C.eval, cub]; ring

/-- `transform(m)` is the substitution by the matrix of `m` -/
theorem C24_transform (f : C) (m : U) : (f.transform m).fn = act f.fn m.toM := by
  funext X Z
  simp only [C.fn, act_toM, cub, C.transform]
  ring

/-- `transform(m)` multiplies the discriminant by `det(m)^6` -/
theorem C24_transform_disc (f : C) (m : U) : (f.transform m).disc = m.det ^ 6 * f.disc := by
  simp only [C.disc, C.transform, U.det]
  ring

/-- The discriminant of the Hessian is `-3` times the discriminant. -/
theorem C24_hessian_disc (f : C) :
    f.qSemi ^ 2 - 4 * f.pSemi * f.rSemi = -3 * f.disc := by
  simp only [C.qSemi, C.pSemi, C.rSemi, C.disc]; ring

/-- the syzygy between the seminvariants -/
theorem C24_syzygy (f : C) : f.uSemi ^ 2 + 27 * f.disc * f.a ^ 2 = 4 * f.pSemi ^ 3 := by
  simp only [C.uSemi, C.pSemi, C.disc]; ring

/-- `p_semi, q_semi, r_semi` are the coefficients of a covariant: the Hessian of the transformed
cubic is the transformed Hessian times the square of the determinant. -/
theorem C24_hessian_covariant (f : C) (m : U) (X Z : ℤ) :
    quad (f.transform m).pSemi (f.transform m).qSemi (f.transform m).rSemi X Z
      = m.det ^ 2 * act (quad f.pSemi f.qSemi f.rSemi) m.toM X Z := by
  simp only [act_toM, quad, C.pSemi, C.qSemi, C.rSemi, C.transform, U.det]
  ring

/-- `x_shift(e,m)` -/
theorem C24_x_shift (f : C) (m : U) (e : ℤ) :
    (f.xShift m e).1.fn = act f.fn !![1, e; 0, 1] ∧
      (f.xShift m e).2.toM = m.toM * !![1, e; 0, 1] ∧ (f.xShift m e).1.disc = f.disc := by
  refine ⟨?_, C22_x_shift m e, ?_⟩
  · funext X Z
    simp only [C.fn, act, cub, C.xShift, Matrix.of_apply, Matrix.cons_val_zero,
      Matrix.cons_val_one, Matrix.cons_val', Matrix.cons_val_fin_one]
    ring
  · simp only [C.disc, C.xShift]; ring

/-- `y_shift(e,m)` -/
theorem C24_y_shift (f : C) (m : U) (e : ℤ) :
    (f.yShift m e).1.fn = act f.fn !![1, 0; e, 1] ∧
      (f.yShift m e).2.toM = m.toM * !![1, 0; e, 1] ∧ (f.yShift m e).1.disc = f.disc := by
  refine ⟨?_, C22_y_shift m e, ?_⟩
  · funext X Z
    simp only [C.fn, act, cub, C.yShift, Matrix.of_apply, Matrix.cons_val_zero,
      Matrix.cons_val_one, Matrix.cons_val', Matrix.cons_val_fin_one]
    ring
  · simp only [C.disc, C.yShift]; ring

/-- `negate(m)` -/
theorem C24_negate (f : C) (m : U) :
    (f.negate m).1.fn = act f.fn !![-1, 0; 0, -1] ∧
      (f.negate m).2.toM = m.toM * !![-1, 0; 0, -1] ∧ (f.negate m).1.disc = f.disc := by
  refine ⟨?_, ?_, ?_⟩
  · funext X Z
    simp only [C.fn, act, cub, C.negate, Matrix.of_apply, Matrix.cons_val_zero,
      Matrix.cons_val_one, Matrix.cons_val', Matrix.cons_val_fin_one]
    ring
  · simp [U.toM, C.negate, U.negate]
  · simp only [C.disc, C.negate]; ring

/-- `seminegate(m)` -/
theorem C24_seminegate (f : C) (m : U) :
    (f.seminegate m).1.fn = act f.fn !![1, 0; 0, -1] ∧
      (f.seminegate m).2.toM = m.toM * !![1, 0; 0, -1] ∧
      (f.seminegate m).1.disc = f.disc := by
  refine ⟨?_, C22_seminegate m, ?_⟩
  · funext X Z
    simp only [C.fn, act, cub, C.seminegate, Matrix.of_apply, Matrix.cons_val_zero,
      Matrix.cons_val_one, Matrix.cons_val', Matrix.cons_val_fin_one]
    ring
  · simp only [C.disc, C.seminegate]; ring

/-- `invert(m)`: the matrix is multiplied by `[0,-1;1,0]`, but the cubic undergoes the opposite
substitution `[0,1;-1,0]`, so that it is minus the cubic which the matrix describes.  The
discriminant and the Hessian do not notice.  Missing from the full claim: the sign, refuted by
`C24_invert_wrong`. -/
theorem C24_invert_partial (f : C) (m : U) :
    (f.invert m).1.fn = act f.fn !![0, 1; -1, 0] ∧
      (f.invert m).2.toM = m.toM * !![0, -1; 1, 0] ∧
      (∀ X Z, (f.invert m).1.fn X Z = -act f.fn !![0, -1; 1, 0] X Z) ∧
      (f.invert m).1.disc = f.disc ∧ (f.invert m).1.hess = (f.hess.invert m).1 := by
  refine ⟨?_, C22_invert m, ?_, ?_, ?_⟩
  · funext X Z
    simp only [C.fn, act, cub, C.invert, Matrix.of_apply, Matrix.cons_val_zero,
      Matrix.cons_val_one, Matrix.cons_val', Matrix.cons_val_fin_one]
    ring
  · intro X Z
    simp only [C.fn, act, cub, C.invert, Matrix.of_apply, Matrix.cons_val_zero,
      Matrix.cons_val_one, Matrix.cons_val', Matrix.cons_val_fin_one]
    ring
  · simp only [C.disc, C.invert]; ring
  · ext <;> simp only [C.hess, C.invert, Q.invert, C.pSemi, C.qSemi, C.rSemi] <;> ring

/-- Whenever the cubic is not zero, `invert` started with the identity returns a matrix which does
not describe the new cubic. -/
theorem C24_invert_wrong (f : C) (hf : f ≠ ⟨0, 0, 0, 0⟩) :
    (f.invert U.one).1.fn ≠ act f.fn (f.invert U.one).2.toM := by
  intro h
  have h2 : (f.invert U.one).2.toM = !![0, -1; 1, 0] := by
    rw [(C24_invert_partial f U.one).2.1, C22_one, one_mul]
  rw [h2] at h
  have h3 := (C24_invert_partial f U.one).2.2.1
  rw [h] at h3
  apply hf
  have hz : ∀ X Z, act f.fn !![0, -1; 1, 0] X Z = 0 := fun X Z => by
    have := h3 X Z
    omega
  have a1 := hz 0 1
  have a2 := hz 1 0
  have a3 := hz 1 1
  have a4 := hz 1 (-1)
  simp [act, C.fn, cub] at a1 a2 a3 a4
  ext <;> simp <;> omega

example : (C.mk 1 2 3 4) ≠ ⟨0, 0, 0, 0⟩ := by decide

/-- the Hessian under `x_shift`, `y_shift`, `negate`, `seminegate` -/
theorem C24_hessian_ops (f : C) (m : U) (e : ℤ) :
    (f.xShift m e).1.hess = (f.hess.xShift m e).1 ∧ (f.yShift m e).1.hess = (f.hess.yShift m e).1 ∧
      (f.negate m).1.hess = f.hess ∧
      (f.seminegate m).1.hess = ⟨f.hess.a, -f.hess.b, f.hess.c⟩ := by
  refine ⟨?_, ?_, ?_, ?_⟩ <;> ext <;>
    simp only [C.hess, C.xShift, C.yShift, C.negate, C.seminegate, Q.xShift, Q.yShift, C.pSemi,
      C.qSemi, C.rSemi] <;> ring

/-- the operations are also instances of `transform` -/
theorem C24_ops_transform (f : C) (m : U) (e : ℤ) :
    (f.xShift m e).1 = f.transform ⟨1, e, 0, 1⟩ ∧ (f.yShift m e).1 = f.transform ⟨1, 0, e, 1⟩ ∧
      (f.negate m).1 = f.transform ⟨-1, 0, 0, -1⟩ ∧
      (f.seminegate m).1 = f.transform ⟨1, 0, 0, -1⟩ ∧
      (f.invert m).1 = f.transform ⟨0, 1, -1, 0⟩ := by
  refine ⟨?_, ?_, ?_, ?_, ?_⟩ <;> ext <;>
    simp only [C.xShift, C.yShift, C.negate, C.seminegate, C.invert, C.transform] <;> ring

end Props

end Eclib.Forms
