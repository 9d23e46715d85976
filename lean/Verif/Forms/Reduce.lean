import Verif.Forms.ReduceModel
import Mathlib.Algebra.Order.Field.Basic
import Mathlib.Algebra.Order.Archimedean.Basic
import Mathlib.Tactic.FieldSimp
import Mathlib.Tactic.LinearCombination
import Mathlib.Tactic.Positivity
import Mathlib.Tactic.NormNum
import Mathlib.Tactic.Linarith
import Mathlib.Data.Rat.Floor

/-!
# `one_step` and `reduce_quad`: unimodularity for any floating point numbers; the course of the loops in exact
arithmetic
-/

namespace Eclib.Forms.Red

/-! ## Any arithmetic -/

section any

set_option linter.unusedSectionVars false

variable {K : Type*} [Add K] [Sub K] [Mul K] [Div K] [Neg K] [IntCast K] [LT K] [DecidableLT K]

theorem oneLoop_det (R : RLib K) (x0 y0 s0 : K) : ∀ n x s (m m' : U), oneLoop R x0 y0 s0 n x s m = some m' →
    m'.det = m.det
  | 0, _, _, _, _, h => by simp [oneLoop] at h
  | n + 1, x, s, m, m', h => by
    have hd : (⟨m.m21, m.m22, R.rnd x * m.m21 - m.m11, R.rnd x * m.m22 - m.m12⟩ : U).det = m.det := by
      simp only [U.det]; ring
    unfold oneLoop at h
    dsimp only at h
    split_ifs at h with h1 h2 h3
    · rw [Option.some.inj h]
    · rw [← Option.some.inj h, hd]
    · rw [← Option.some.inj h, hd]
    · rw [oneLoop_det R x0 y0 s0 n _ _ _ _ h, hd]

theorem xShift_det (m : U) (s : ℤ) : (m.xShift s).det = m.det := by
  simp only [U.det, U.xShift]; ring

theorem invert_det (m : U) : m.invert.det = m.det := by
  simp only [U.det, U.invert]; ring

theorem rqLoop_det (R : RLib K) : ∀ n (t t' : K × K × U), rqLoop R n t = some t' → t'.2.2.det = t.2.2.det
  | 0, _, _, h => by simp [rqLoop] at h
  | n + 1, (b, c, m), t', h => by
    unfold rqLoop at h
    split_ifs at h with h1
    · rw [← Option.some.inj h]
    · rw [rqLoop_det R n _ _ h]
      simp only [shift, inv, xShift_det, invert_det]

theorem reduceQuad_det (R : RLib K) (fuel : ℕ) (b c yz : K) (t : K × K × U)
    (h : reduceQuad R fuel b c yz = some t) : t.2.2.det = 1 := by
  unfold reduceQuad at h
  dsimp only at h
  split at h
  · exact absurd h (by simp)
  · rename_i m0 e
    have h0 : m0.det = 1 := by
      rw [oneLoop_det R _ _ _ _ _ _ _ _ e]; rfl
    rw [rqLoop_det R _ _ _ h]
    simp only [shift, afterOne, xShift_det]
    rw [← h0]; simp only [U.det]; ring

end any

/-! ## Exact arithmetic -/

variable {K : Type*} [Field K] [LinearOrder K] [IsStrictOrderedRing K]

/-- `Iround` gives a nearest integer and `is_approx_zero(0)` is true (so that there is no division by 0) -/
structure RLib.Ok (R : RLib K) : Prop where
  rnd : ∀ x, |(R.rnd x : K) - x| ≤ 1 / 2
  azero : R.azero 0 = true

/-- the quadratic form `X² + b X Z + c Z²` -/
def qf (b c X Z : K) : K := X * X + b * X * Z + c * Z * Z

/-- `X² + b X Z + c Z²` is, up to the positive factor `A`, the form `X² + b0 X Z + c0 Z²` transformed by `m` -/
structure Track (b0 c0 : K) (m : U) (A b c : K) : Prop where
  det : m.det = 1
  pos : 0 < A
  ea : A = qf b0 c0 m.m11 m.m21
  eb : A * b = 2 * m.m11 * m.m12 + b0 * (m.m11 * m.m22 + m.m12 * m.m21) + 2 * c0 * m.m21 * m.m22
  ec : A * c = qf b0 c0 m.m12 m.m22

variable {b0 c0 : K} {m : U} {A b c : K}

theorem Track.disc (T : Track b0 c0 m A b c) : A ^ 2 * (4 * c - b ^ 2) = 4 * c0 - b0 ^ 2 := by
  have hd : (m.m11 * m.m22 - m.m12 * m.m21 : K) = 1 := by
    have := T.det; simp only [U.det] at this; exact_mod_cast this
  have e : A ^ 2 * (4 * c - b ^ 2) = 4 * A * (A * c) - (A * b) ^ 2 := by ring
  rw [e, T.ec, T.eb, T.ea]
  simp only [qf]
  linear_combination (4 * c0 - b0 ^ 2) * (m.m11 * m.m22 - m.m12 * m.m21 + 1) * hd

theorem Track.fn (T : Track b0 c0 m A b c) (X Z : K) :
    qf b0 c0 (m.m11 * X + m.m12 * Z) (m.m21 * X + m.m22 * Z) = A * qf b c X Z := by
  have e : A * qf b c X Z = A * X * X + (A * b) * X * Z + (A * c) * Z * Z := by simp only [qf]; ring
  rw [e, T.ec, T.eb, T.ea]
  simp only [qf]; ring

theorem Track.shift (T : Track b0 c0 m A b c) (s : ℤ) :
    Track b0 c0 (m.xShift s) A (b + ((2 : ℤ) : K) * s) (c + s * (s + b)) where
  det := by rw [xShift_det, T.det]
  pos := T.pos
  ea := T.ea
  eb := by
    rw [mul_add, T.eb]
    simp only [U.xShift]; push_cast
    rw [show A * (2 * s : K) = 2 * s * A by ring, T.ea]
    simp only [qf]; ring
  ec := by
    have e : A * (c + s * (s + b)) = A * c + s * s * A + s * (A * b) := by ring
    rw [e, T.ec, T.eb]
    conv_lhs => rw [T.ea]
    simp only [U.xShift, qf]; push_cast; ring

theorem Track.c_pos (T : Track b0 c0 m A b c) (hD : 0 < 4 * c0 - b0 ^ 2) : 0 < c := by
  have h := T.disc
  have h1 : 0 < 4 * c - b ^ 2 := by
    rw [← h] at hD
    exact (mul_pos_iff_of_pos_left (by have := T.pos; positivity)).1 hD
  nlinarith [sq_nonneg b]

theorem Track.inv (T : Track b0 c0 m A b c) (hD : 0 < 4 * c0 - b0 ^ 2) :
    Track b0 c0 m.invert (A * c) (b * (-(((1 : ℤ) : K) / c))) (((1 : ℤ) : K) / c) where
  det := by rw [invert_det, T.det]
  pos := mul_pos T.pos (T.c_pos hD)
  ea := by rw [T.ec]; simp [U.invert]
  eb := by
    have hc := (T.c_pos hD).ne'
    have e : A * c * (b * (-(((1 : ℤ) : K) / c))) = -(A * b) := by push_cast; field_simp
    rw [e, T.eb]
    simp only [U.invert]; push_cast; ring
  ec := by
    have hc := (T.c_pos hD).ne'
    have e : A * c * (((1 : ℤ) : K) / c) = A := by push_cast; field_simp
    rw [e, T.ea]
    simp only [U.invert, qf]; push_cast; ring

theorem qf_pos (hD : 0 < 4 * c0 - b0 ^ 2) {X Z : K} (h : X ≠ 0 ∨ Z ≠ 0) : 0 < qf b0 c0 X Z := by
  have e : qf b0 c0 X Z = (X + b0 / 2 * Z) ^ 2 + (4 * c0 - b0 ^ 2) / 4 * Z ^ 2 := by simp only [qf]; ring
  rw [e]
  by_cases hz : Z = 0
  · have hx : X ≠ 0 := h.resolve_right (not_not.2 hz)
    subst hz; simp only [mul_zero, add_zero]; positivity
  · have : 0 < Z ^ 2 := by positivity
    nlinarith [sq_nonneg (X + b0 / 2 * Z)]

/-- a lower bound for the values of the form at integers -/
theorem qf_bound (hD : 0 < 4 * c0 - b0 ^ 2) {u v : ℤ} (h : u ≠ 0 ∨ v ≠ 0) :
    min 1 ((4 * c0 - b0 ^ 2) / 4) ≤ qf b0 c0 (u : K) v := by
  have e : qf b0 c0 (u : K) v = (u + b0 / 2 * v) ^ 2 + (4 * c0 - b0 ^ 2) / 4 * (v : K) ^ 2 := by
    simp only [qf]; ring
  have one : ∀ w : ℤ, w ≠ 0 → (1 : K) ≤ (w : K) ^ 2 := fun w hw => by
    have : (1 : ℤ) ≤ w ^ 2 := by have := sq_pos_of_ne_zero hw; omega
    exact_mod_cast this
  rw [e]
  by_cases hv : v = 0
  · have hu := h.resolve_right (not_not.2 hv)
    subst hv
    have := one u hu
    simp only [Int.cast_zero, mul_zero, add_zero, ne_eq, OfNat.ofNat_ne_zero, not_false_eq_true, zero_pow]
    exact (min_le_left _ _).trans this
  · have := one v hv
    refine (min_le_right _ _).trans ?_
    nlinarith [sq_nonneg ((u : K) + b0 / 2 * v)]

theorem det_ne {m : U} (h : m.det = 1) : m.m11 ≠ 0 ∨ m.m21 ≠ 0 := by
  by_contra hn
  push Not at hn
  simp [U.det, hn.1, hn.2] at h

/-- the quadratic after `one_step` -/
theorem afterOne_track (hD : 0 < 4 * c0 - b0 ^ 2) {m0 : U} (h0 : m0.det = 1) :
    ∃ A, Track b0 c0 (afterOne b0 c0 m0).2.2 A (afterOne b0 c0 m0).1 (afterOne b0 c0 m0).2.1 := by
  have hd : (⟨m0.m22, -m0.m12, -m0.m21, m0.m11⟩ : U).det = 1 := by
    rw [← h0]; simp only [U.det]; ring
  have hp : 0 < qf b0 c0 (m0.m22 : K) ((-m0.m21 : ℤ) : K) := qf_pos hD (by
    rcases det_ne hd with h | h
    · exact .inl (by exact_mod_cast h)
    · exact .inr (by exact_mod_cast h))
  have ea : (m0.m22 : K) * m0.m22 + (b0 * m0.m22 + c0 * -(m0.m21 : K)) * -(m0.m21 : K) =
      qf b0 c0 (m0.m22 : K) ((-m0.m21 : ℤ) : K) := by simp only [qf]; push_cast; ring
  refine ⟨qf b0 c0 (m0.m22 : K) ((-m0.m21 : ℤ) : K), hd, hp, rfl, ?_, ?_⟩
  · simp only [afterOne]
    rw [ea, mul_div_cancel₀ _ hp.ne']; push_cast; ring
  · simp only [afterOne]
    rw [ea, mul_div_cancel₀ _ hp.ne']; simp only [qf]; push_cast; ring

/-! ### The loop of `one_step` ends -/

theorem oneLoop_ends {R : RLib K} (hR : R.Ok) {x0 y0 s0 : K} (hy : 0 < y0) :
    ∀ (n : ℕ) x s (m : U), s ≤ 1 → 2 ≤ |x| → |m.m11| < |m.m21| →
      1 < y0 * ((|m.m21| + (n : ℤ) : ℤ) : K) → ∃ m', oneLoop R x0 y0 s0 (n + 1) x s m = some m'
  | n, x, s, m, hs, hx, hac, hn => by
    have hk : 2 ≤ |R.rnd x| := by
      have h1 := hR.rnd x
      have h2 : |x| ≤ |(R.rnd x : K)| + |(R.rnd x : K) - x| := by
        have := abs_sub_abs_le_abs_sub x (R.rnd x : K)
        rw [abs_sub_comm] at this
        linarith
      have h3 : (1 : K) < |(R.rnd x : K)| := by linarith
      have h4 : (1 : ℤ) < |R.rnd x| := by exact_mod_cast h3
      omega
    have hc : |m.m21| < |R.rnd x * m.m21 - m.m11| := by
      have h1 := abs_sub_abs_le_abs_sub (R.rnd x * m.m21) m.m11
      rw [abs_mul] at h1
      nlinarith [abs_nonneg m.m21]
    unfold oneLoop
    dsimp only
    split_ifs with h1 h2 h3
    · exact ⟨_, rfl⟩
    · exact ⟨_, rfl⟩
    · exact ⟨_, rfl⟩
    · push Not at h1
      have hx2 : (R.rnd x : K) - x ≠ 0 := fun e => h3 (by rw [e]; exact hR.azero)
      have hx3 : 2 ≤ |((1 : ℤ) : K) / ((R.rnd x : K) - x)| := by
        rw [abs_div]; push_cast; rw [abs_one, le_div_iff₀ (abs_pos.2 hx2)]
        have := hR.rnd x; linarith
      have hcb : y0 * ((|R.rnd x * m.m21 - m.m11| : ℤ) : K) ≤ 1 := by
        have h4 : (y0 * ((R.rnd x * m.m21 - m.m11 : ℤ) : K)) ^ 2 ≤ 1 := by
          refine le_trans ?_ (h1.trans hs)
          nlinarith [mul_self_nonneg (x0 * ((R.rnd x * m.m21 - m.m11 : ℤ) : K) +
            ((R.rnd x * m.m22 - m.m12 : ℤ) : K))]
        have h5 := (sq_le_one_iff_abs_le_one _).1 h4
        rwa [abs_mul, abs_of_pos hy, ← Int.cast_abs] at h5
      cases n with
      | zero =>
        exfalso
        have : ((|m.m21| + (0 : ℕ) : ℤ) : K) ≤ ((|R.rnd x * m.m21 - m.m11| : ℤ) : K) := by
          have : |m.m21| + ((0 : ℕ) : ℤ) ≤ |R.rnd x * m.m21 - m.m11| := by push_cast; omega
          exact_mod_cast this
        nlinarith
      | succ n =>
        refine oneLoop_ends hR hy n _ _ _ (h1.trans hs) hx3 hc (hn.trans_le ?_)
        refine mul_le_mul_of_nonneg_left ?_ hy.le
        have : |m.m21| + ((n + 1 : ℕ) : ℤ) ≤ |R.rnd x * m.m21 - m.m11| + (n : ℤ) := by push_cast; omega
        exact_mod_cast this

/-- `one_step` ends -/
theorem oneStep_ends {R : RLib K} (hR : R.Ok) (x0 : K) {y0 : K} (h : K) (hy : 0 < y0) {n : ℕ}
    (hn : 1 < y0 * ((1 + (n : ℤ) : ℤ) : K)) : ∃ m', oneStep R (n + 2) x0 y0 h = some m' := by
  unfold oneStep oneLoop
  dsimp only
  split_ifs with h1 h2 h3
  · exact ⟨_, rfl⟩
  · exact ⟨_, rfl⟩
  · exact ⟨_, rfl⟩
  · push Not at h1
    have hx2 : (R.rnd x0 : K) - x0 ≠ 0 := fun e => h3 (by rw [e]; exact hR.azero)
    have hx3 : 2 ≤ |((1 : ℤ) : K) / ((R.rnd x0 : K) - x0)| := by
      rw [abs_div]; push_cast; rw [abs_one, le_div_iff₀ (abs_pos.2 hx2)]
      have := hR.rnd x0; linarith
    refine oneLoop_ends hR hy n _ _ _ (h1.trans (by push_cast; exact le_rfl)) hx3 (by simp [U.one]) ?_
    simpa [U.one] using hn

/-- more fuel gives the same result -/
theorem oneLoop_mono (R : RLib K) (x0 y0 s0 : K) : ∀ n x s (m m' : U), oneLoop R x0 y0 s0 n x s m = some m' →
    ∀ k, n ≤ k → oneLoop R x0 y0 s0 k x s m = some m'
  | 0, _, _, _, _, h, _, _ => by simp [oneLoop] at h
  | n + 1, x, s, m, m', h, k, hk => by
    obtain ⟨k, rfl⟩ : ∃ j, k = j + 1 := ⟨k - 1, by omega⟩
    unfold oneLoop at h ⊢
    dsimp only at h ⊢
    split_ifs at h ⊢ with h1 h2 h3
    · exact h
    · exact h
    · exact h
    · exact oneLoop_mono R x0 y0 s0 n _ _ _ _ h k (by omega)

theorem rqLoop_mono (R : RLib K) : ∀ n (t t' : K × K × U), rqLoop R n t = some t' →
    ∀ k, n ≤ k → rqLoop R k t = some t'
  | 0, _, _, h, _, _ => by simp [rqLoop] at h
  | n + 1, (b, c, m), t', h, k, hk => by
    obtain ⟨k, rfl⟩ : ∃ j, k = j + 1 := ⟨k - 1, by omega⟩
    unfold rqLoop at h ⊢
    split_ifs at h ⊢ with h1
    · exact h
    · exact rqLoop_mono R n _ _ h k (by omega)

/-! ### The main loop -/

theorem rnd_shift {R : RLib K} (hR : R.Ok) (b : K) :
    |b + ((2 : ℤ) : K) * (R.rnd (-b / ((2 : ℤ) : K)) : K)| ≤ 1 := by
  have h := hR.rnd (-b / ((2 : ℤ) : K))
  rw [abs_le] at h ⊢
  push_cast at h ⊢
  constructor <;> linarith [h.1, h.2]

theorem rqLoop_spec {R : RLib K} (hR : R.Ok) (hD : 0 < 4 * c0 - b0 ^ 2) :
    ∀ n A b c (m : U), Track b0 c0 m A b c → ∀ b' c' m', rqLoop R n (b, c, m) = some (b', c', m') →
      (∃ A', Track b0 c0 m' A' b' c') ∧ 99999 / 100000 < c' ∧
        (|b| ≤ 1 ∨ c ≤ 99999 / 100000 → |b'| ≤ 1) ∧ (99999 / 100000 < c → b' = b ∧ c' = c)
  | 0, _, _, _, _, _, _, _, _, h => by simp [rqLoop] at h
  | n + 1, A, b, c, m, T, b', c', m', h => by
    unfold rqLoop at h
    split_ifs at h with h1
    · have e := Option.some.inj h
      simp only [Prod.mk.injEq] at e
      obtain ⟨rfl, rfl, rfl⟩ := e
      push_cast at h1
      exact ⟨⟨A, T⟩, h1, fun h2 => h2.resolve_right (not_le.2 h1), fun _ => ⟨rfl, rfl⟩⟩
    · push_cast at h1
      obtain ⟨h2, h3, h4, -⟩ := rqLoop_spec hR hD n _ _ _ _ ((T.inv hD).shift _) _ _ _ h
      exact ⟨h2, h3, fun _ => h4 (.inl (rnd_shift hR _)), fun h5 => absurd h5 h1⟩

theorem rqLoop_ends {R : RLib K} (hD : 0 < 4 * c0 - b0 ^ 2) :
    ∀ (n : ℕ) A b c (m : U), Track b0 c0 m A b c →
      A * (99999 / 100000) ^ n < min 1 ((4 * c0 - b0 ^ 2) / 4) → ∃ t, rqLoop R n (b, c, m) = some t
  | 0, A, b, c, m, T, h => by
    exfalso
    have := qf_bound hD (det_ne T.det)
    rw [← T.ea] at this
    simp only [pow_zero, mul_one] at h
    exact absurd h (not_lt.2 this)
  | n + 1, A, b, c, m, T, h => by
    unfold rqLoop
    split_ifs with h1
    · exact ⟨_, rfl⟩
    · push_cast at h1
      push Not at h1
      refine rqLoop_ends hD n _ _ _ _ ((T.inv hD).shift _) (lt_of_le_of_lt ?_ h)
      rw [pow_succ, mul_assoc, mul_comm ((99999 / 100000 : K) ^ n)]
      refine mul_le_mul_of_nonneg_left ?_ T.pos.le
      exact mul_le_mul_of_nonneg_right h1 (by positivity)

end Eclib.Forms.Red
