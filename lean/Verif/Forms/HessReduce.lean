import Verif.Forms.Cubic

/-! # C24, C55: reduction of cubics of positive discriminant and the equivalence test -/

namespace Eclib.Forms

open Eclib.Forms.Spec

/-! ## the order on cubics -/

theorem C.lt_iff (f g : C) : f.lt g = true ↔
    f.a < g.a ∨ (f.a = g.a ∧ (f.b < g.b ∨ (f.b = g.b ∧ (f.c < g.c ∨ (f.c = g.c ∧ f.d < g.d))))) := by
  simp [C.lt]

theorem C.lt_irrefl (f : C) : ¬ f.lt f = true := by
  rw [C.lt_iff]; omega

theorem C.lt_trans {f g h : C} (h1 : f.lt g = true) (h2 : g.lt h = true) : f.lt h = true := by
  rw [C.lt_iff] at *; omega

theorem C.not_lt_trans {f g h : C} (h1 : ¬ f.lt g = true) (h2 : ¬ g.lt h = true) :
    ¬ f.lt h = true := by
  rw [C.lt_iff] at *; omega

theorem C.eq_of_not_lt {f g : C} (h1 : ¬ f.lt g = true) (h2 : ¬ g.lt f = true) : f = g := by
  rw [C.lt_iff] at *
  ext <;> omega

theorem C.lt_asymm {f g : C} (h1 : f.lt g = true) : ¬ g.lt f = true := by
  rw [C.lt_iff] at *; omega

/-! ## normalise -/

/-- the matrices which `normalise` tries -/
def auts (n : ℕ) : List U :=
  if n = 4 then [⟨1, 0, 0, 1⟩, ⟨0, -1, 1, 0⟩, ⟨-1, 0, 0, -1⟩, ⟨0, 1, -1, 0⟩]
  else if n = 6 then [⟨1, 0, 0, 1⟩, ⟨1, 1, -1, 0⟩, ⟨0, 1, -1, -1⟩, ⟨-1, 0, 0, -1⟩, ⟨-1, -1, 1, 0⟩,
    ⟨0, -1, 1, 1⟩]
  else [⟨1, 0, 0, 1⟩, ⟨-1, 0, 0, -1⟩]

theorem C.transform_transform (f : C) (m n : U) :
    (f.transform m).transform n = f.transform (m.mul n) := by
  apply C.ext_fn
  rw [Props.C24_transform, Props.C24_transform, Props.C24_transform, act_mul, Props.C22_mul]

theorem C.transform_one (f : C) : f.transform U.one = f := by
  apply C.ext_fn
  rw [Props.C24_transform, Props.C22_one, act_one]

theorem U.one_mul (m : U) : U.one.mul m = m := by
  apply toM_inj; rw [Props.C22_mul, Props.C22_one, _root_.one_mul]

theorem U.mul_one (m : U) : m.mul U.one = m := by
  apply toM_inj; rw [Props.C22_mul, Props.C22_one, _root_.mul_one]

theorem U.mul_assoc (a b c : U) : (a.mul b).mul c = a.mul (b.mul c) := by
  apply toM_inj; simp only [Props.C22_mul, _root_.mul_assoc]

theorem C.nautos_cases (f : C) : f.nautos = 2 ∨ f.nautos = 4 ∨ f.nautos = 6 := by
  unfold C.nautos; split_ifs <;> simp

theorem C.candidates_eq (f : C) : C.candidates (C.autOf f.nautos) (f.nautos - 1) f U.one =
    (auts f.nautos).map fun w => (f.transform w, w) := by
  have key : ∀ aut w : U, (f.transform w).transform aut = f.transform (w.mul aut) :=
    fun aut w => C.transform_transform f w aut
  have h1 : f = f.transform U.one := (C.transform_one f).symm
  rcases C.nautos_cases f with h | h | h <;> rw [h]
  all_goals
    conv_lhs => rw [h1]
    simp only [C.candidates, key, auts, C.autOf]
    norm_num [U.mul, U.one, C.candidates]

theorem C.maxElt_spec (l : List (C × U)) : ∀ b : C × U, C.maxElt b l ∈ b :: l ∧
    ∀ x ∈ b :: l, ¬ (C.maxElt b l).1.lt x.1 = true := by
  induction l with
  | nil =>
    intro b
    refine ⟨by simp [C.maxElt], ?_⟩
    intro x hx
    simp only [List.mem_singleton] at hx
    subst hx
    exact C.lt_irrefl _
  | cons y l ih =>
    intro b
    simp only [C.maxElt]
    obtain ⟨h1, h2⟩ := ih (if b.1.lt y.1 = true then y else b)
    by_cases hb : b.1.lt y.1 = true
    · rw [if_pos hb] at *
      refine ⟨List.mem_cons_of_mem _ h1, ?_⟩
      intro x hx
      rcases List.mem_cons.mp hx with rfl | hx
      · intro hlt
        exact h2 y List.mem_cons_self (C.lt_trans hlt hb)
      · exact h2 x hx
    · rw [if_neg hb] at *
      refine ⟨?_, ?_⟩
      · rcases List.mem_cons.mp h1 with h | h
        · rw [h]; exact List.mem_cons_self
        · exact List.mem_cons_of_mem _ (List.mem_cons_of_mem _ h)
      · intro x hx
        rcases List.mem_cons.mp hx with rfl | hx
        · exact h2 _ List.mem_cons_self
        · rcases List.mem_cons.mp hx with rfl | hx
          · exact C.not_lt_trans (h2 b List.mem_cons_self) hb
          · exact h2 x (List.mem_cons_of_mem _ hx)

theorem auts_cons (n : ℕ) : ∃ l, auts n = U.one :: l := by
  unfold auts; split_ifs <;> exact ⟨_, rfl⟩

theorem C.normalise_spec (f : C) (m : U) :
    (∃ w ∈ auts f.nautos, (f.normalise m).1 = f.transform w ∧ (f.normalise m).2 = m.mul w) ∧
      ∀ w ∈ auts f.nautos, ¬ (f.normalise m).1.lt (f.transform w) = true := by
  obtain ⟨l, hl⟩ := auts_cons f.nautos
  have e := C.candidates_eq f
  rw [hl] at e
  simp only [List.map_cons, C.transform_one] at e
  have ht : (C.candidates (C.autOf f.nautos) (f.nautos - 1) f U.one).tail
      = l.map fun w => (f.transform w, w) := by rw [e]; rfl
  obtain ⟨h1, h2⟩ := C.maxElt_spec (l.map fun w => (f.transform w, w)) (f, U.one)
  have hmap : (f, U.one) :: (l.map fun w => (f.transform w, w))
      = (auts f.nautos).map fun w => (f.transform w, w) := by
    rw [hl]; simp [C.transform_one]
  rw [hmap] at h1 h2
  have hn : f.normalise m = ((C.maxElt (f, U.one) (l.map fun w => (f.transform w, w))).1,
      m.mul (C.maxElt (f, U.one) (l.map fun w => (f.transform w, w))).2) := by
    simp only [C.normalise, ht]
  rw [hn]
  refine ⟨?_, ?_⟩
  · obtain ⟨w, hw, hw2⟩ := List.mem_map.mp h1
    exact ⟨w, hw, by rw [← hw2], by rw [← hw2]⟩
  · intro w hw
    exact h2 (f.transform w, w) (List.mem_map.mpr ⟨w, hw, rfl⟩)

theorem auts_det (n : ℕ) : ∀ w ∈ auts n, w.det = 1 := by
  unfold auts; split_ifs <;> decide

theorem auts_closed (n : ℕ) : ∀ v ∈ auts n, ∀ w ∈ auts n, v.mul w ∈ auts n := by
  unfold auts; split_ifs <;> decide

/-! ## Reduced positive definite forms -/

/-- the fundamental region reached by `hess_reduce` -/
def Red (P Q R : ℤ) : Prop := (-P ≤ Q ∧ Q < P ∧ P < R) ∨ (0 ≤ Q ∧ Q ≤ P ∧ P = R)

theorem sq_ge_one (x y : ℤ) (h : x ≠ 0 ∨ y ≠ 0) : 1 ≤ |x| ^ 2 - |x| * |y| + |y| ^ 2 := by
  have hx := abs_nonneg x
  have hy := abs_nonneg y
  by_cases h0 : y = 0
  · have hx0 : x ≠ 0 := by tauto
    have : 1 ≤ |x| := Int.one_le_abs hx0
    subst h0
    simp only [abs_zero]
    nlinarith
  · have : 1 ≤ |y| := Int.one_le_abs h0
    have h4 : 4 * (|x| ^ 2 - |x| * |y| + |y| ^ 2) = (2 * |x| - |y|) ^ 2 + 3 * |y| ^ 2 := by ring
    have h5 := sq_nonneg (2 * |x| - |y|)
    have h6 : 1 ≤ |y| ^ 2 := by nlinarith
    omega

theorem quad_min {P Q R : ℤ} (hP : 0 < P) (h1 : |Q| ≤ P) (h2 : P ≤ R) (x y : ℤ)
    (h : x ≠ 0 ∨ y ≠ 0) : P ≤ P * x ^ 2 + Q * x * y + R * y ^ 2 := by
  have e1 : -(P * (|x| * |y|)) ≤ Q * x * y := by
    have : |Q * x * y| ≤ P * (|x| * |y|) := by
      rw [abs_mul, abs_mul, _root_.mul_assoc]
      exact mul_le_mul_of_nonneg_right h1 (by positivity)
    linarith [neg_abs_le (Q * x * y)]
  have e2 : P * y ^ 2 ≤ R * y ^ 2 := mul_le_mul_of_nonneg_right h2 (sq_nonneg y)
  have e3 := sq_ge_one x y h
  have e4 : P * 1 ≤ P * (|x| ^ 2 - |x| * |y| + |y| ^ 2) := mul_le_mul_of_nonneg_left e3 hP.le
  have e5 : P * (|x| ^ 2 - |x| * |y| + |y| ^ 2) = P * x ^ 2 - P * (|x| * |y|) + P * y ^ 2 := by
    rw [sq_abs, sq_abs]; ring
  linarith

theorem Red.abs {P Q R : ℤ} (hP : 0 < P) (h : Red P Q R) : |Q| ≤ P ∧ P ≤ R := by
  rw [abs_le]
  rcases h with ⟨h1, h2, h3⟩ | ⟨h1, h2, h3⟩ <;> omega

theorem lin_nonneg {P Q x : ℤ} (hP : 0 < P) (h : |Q| ≤ P) : 0 ≤ P * x ^ 2 + Q * x := by
  have e1 : -(P * |x|) ≤ Q * x := by
    have : |Q * x| ≤ P * |x| := by
      rw [abs_mul]; exact mul_le_mul_of_nonneg_right h (abs_nonneg x)
    linarith [neg_abs_le (Q * x)]
  have e2 : |x| ≤ x ^ 2 := by
    rw [← sq_abs]
    by_cases h0 : x = 0
    · subst h0; simp
    · have : 1 ≤ |x| := Int.one_le_abs h0
      nlinarith
  have e3 : P * |x| ≤ P * x ^ 2 := mul_le_mul_of_nonneg_left e2 hP.le
  linarith

/-- the case of a matrix with lower left entry 1 -/
theorem red_gamma_one {P Q R : ℤ} (hP : 0 < P) (h : Red P Q R) {x : ℤ}
    (e : P = P * x ^ 2 + Q * x + R) : P = R ∧ 0 ≤ Q ∧ Q ≤ P ∧ (x = 0 ∨ (x = -1 ∧ Q = P)) := by
  obtain ⟨h1, h2⟩ := h.abs hP
  have h3 := lin_nonneg (x := x) hP h1
  have hR : P = R := by omega
  have hQ : 0 ≤ Q ∧ Q ≤ P := by
    rcases h with ⟨_, _, h⟩ | ⟨h, h', _⟩
    · omega
    · exact ⟨h, h'⟩
  refine ⟨hR, hQ.1, hQ.2, ?_⟩
  have h4 : x * (P * x + Q) = 0 := by
    have : P * x ^ 2 + Q * x = 0 := by omega
    linarith [this, (by ring : x * (P * x + Q) = P * x ^ 2 + Q * x)]
  rcases mul_eq_zero.mp h4 with h5 | h5
  · exact Or.inl h5
  · have hx1 : x ≤ 0 := by
      by_contra hc
      have : P * 1 ≤ P * x := mul_le_mul_of_nonneg_left (by omega) hP.le
      omega
    have hx2 : -1 ≤ x := by
      by_contra hc
      have : P * x ≤ P * (-2) := mul_le_mul_of_nonneg_left (by omega) hP.le
      omega
    have : x = 0 ∨ x = -1 := by omega
    rcases this with rfl | rfl
    · exact Or.inl rfl
    · exact Or.inr ⟨rfl, by omega⟩

/-- Two reduced positive definite forms which are properly equivalent are equal, and the
substitution is one of the listed automorphisms. -/
theorem red_unique {P Q R P' Q' R' : ℤ} (hP : 0 < P) (hP' : 0 < P') (h : Red P Q R)
    (h' : Red P' Q' R') (m : U) (hdet : m.det = 1)
    (e1 : P' = P * m.m11 ^ 2 + Q * m.m11 * m.m21 + R * m.m21 ^ 2)
    (e2 : Q' = 2 * P * m.m11 * m.m12 + Q * (m.m11 * m.m22 + m.m12 * m.m21) + 2 * R * m.m21 * m.m22)
    (e3 : R' = P * m.m12 ^ 2 + Q * m.m12 * m.m22 + R * m.m22 ^ 2) :
    P = P' ∧ Q = Q' ∧ R = R' ∧
      m ∈ auts (if P = R then (if Q = 0 then 4 else if Q = R then 6 else 2) else 2) := by
  obtain ⟨α, β, γ, δ⟩ := m
  simp only [U.det] at hdet
  simp only at e1 e2 e3
  -- the inverse substitution
  have i1 : P = P' * δ ^ 2 - Q' * δ * γ + R' * γ ^ 2 := by
    rw [e1, e2, e3]
    have : (α * δ - β * γ) ^ 2 = 1 := by rw [hdet]; norm_num
    linear_combination (-P) * this
  have hdisc : Q' ^ 2 - 4 * P' * R' = Q ^ 2 - 4 * P * R := by
    rw [e1, e2, e3]
    have : (α * δ - β * γ) ^ 2 = 1 := by rw [hdet]; norm_num
    linear_combination (Q ^ 2 - 4 * P * R) * this
  obtain ⟨a1, a2⟩ := h.abs hP
  obtain ⟨b1, b2⟩ := h'.abs hP'
  have hne : α ≠ 0 ∨ γ ≠ 0 := by
    by_contra hc
    push Not at hc
    rw [hc.1, hc.2] at hdet
    omega
  have hne' : δ ≠ 0 ∨ γ ≠ 0 := by
    by_contra hc
    push Not at hc
    rw [hc.1, hc.2] at hdet
    omega
  have hPP : P = P' := by
    have l1 := quad_min hP a1 a2 α γ hne
    have l2 := quad_min hP' (Q := -Q') (by rw [abs_neg]; exact b1) b2 δ γ hne'
    have : P' * δ ^ 2 + -Q' * δ * γ + R' * γ ^ 2 = P' * δ ^ 2 - Q' * δ * γ + R' * γ ^ 2 := by ring
    omega
  subst hPP
  by_cases hγ : γ = 0
  · -- upper triangular
    subst hγ
    have hαδ : α * δ = 1 := by linarith
    have hQ' : Q' = Q + 2 * P * (α * β) := by rw [e2]; linear_combination Q * hαδ
    have hab : α * β = 0 := by
      rw [abs_le] at a1 b1
      have u1 : P * (α * β) ≤ P := by
        have : 2 * (P * (α * β)) = Q' - Q := by rw [hQ']; ring
        omega
      have u2 : -P ≤ P * (α * β) := by
        have : 2 * (P * (α * β)) = Q' - Q := by rw [hQ']; ring
        omega
      by_contra hc
      have hx : α * β = 1 ∨ α * β = -1 := by
        have v1 : α * β ≤ 1 := by
          by_contra hv
          have : P * 2 ≤ P * (α * β) := mul_le_mul_of_nonneg_left (by omega) hP.le
          omega
        have v2 : -1 ≤ α * β := by
          by_contra hv
          have : P * (α * β) ≤ P * (-2) := mul_le_mul_of_nonneg_left (by omega) hP.le
          omega
        omega
      rcases hx with hx | hx
      · rw [hx] at hQ'
        have q1 : Q = -P := by omega
        have q2 : Q' = P := by omega
        have r1 : R' = R := by
          rw [q1, q2] at hdisc
          have : 4 * P * R' = 4 * P * R := by linarith [hdisc]
          exact mul_left_cancel₀ (by omega : (4 * P) ≠ 0) this
        rcases h with ⟨_, _, h⟩ | ⟨h, _, _⟩
        · rcases h' with ⟨_, h', _⟩ | ⟨_, _, h'⟩ <;> omega
        · omega
      · rw [hx] at hQ'
        have q1 : Q = P := by omega
        have q2 : Q' = -P := by omega
        have r1 : R' = R := by
          rw [q1, q2] at hdisc
          have : 4 * P * R' = 4 * P * R := by linarith [hdisc]
          exact mul_left_cancel₀ (by omega : (4 * P) ≠ 0) this
        rcases h' with ⟨_, _, h'⟩ | ⟨h', _, _⟩
        · rcases h with ⟨_, h, _⟩ | ⟨_, _, h⟩ <;> omega
        · omega
    have hα : α ≠ 0 := by rintro rfl; simp at hαδ
    have hβ : β = 0 := (mul_eq_zero.mp hab).resolve_left hα
    subst hβ
    have hQQ : Q = Q' := by rw [hQ', hab]; ring
    subst hQQ
    have hRR : R = R' := by
      have : 4 * P * R' = 4 * P * R := by linarith [hdisc]
      exact (mul_left_cancel₀ (by omega : (4 * P) ≠ 0) this).symm
    refine ⟨rfl, rfl, hRR, ?_⟩
    rcases Int.eq_one_or_neg_one_of_mul_eq_one hαδ with rfl | rfl
    · have : δ = 1 := by linarith
      subst this
      unfold auts; split_ifs <;> simp
    · have : δ = -1 := by linarith
      subst this
      unfold auts; split_ifs <;> simp
  · -- `γ = ±1`
    have hg1 : γ ^ 2 ≤ 1 := by
      have f1 : 4 * P * P = (2 * P * α + Q * γ) ^ 2 + (4 * P * R - Q ^ 2) * γ ^ 2 := by
        rw [show 4 * P * P = 4 * P * (P * α ^ 2 + Q * α * γ + R * γ ^ 2) from by rw [← e1]]
        ring
      have f2 : 3 * (P * P) ≤ 4 * P * R - Q ^ 2 := by
        have : Q ^ 2 ≤ P * P := by
          rw [← sq_abs, sq]
          exact mul_le_mul a1 a1 (abs_nonneg _) hP.le
        have : P * P ≤ P * R := mul_le_mul_of_nonneg_left a2 hP.le
        linarith
      have f3 := mul_le_mul_of_nonneg_right f2 (sq_nonneg γ)
      have f4 := sq_nonneg (2 * P * α + Q * γ)
      by_contra hc
      have f5 : 2 ≤ γ ^ 2 := by omega
      have hPP : 0 < P * P := by positivity
      have f6 : P * P * 2 ≤ P * P * γ ^ 2 := mul_le_mul_of_nonneg_left f5 hPP.le
      have f7 : 3 * (P * P) * γ ^ 2 = 3 * (P * P * γ ^ 2) := by ring
      linarith
    have hg : γ = 1 ∨ γ = -1 := by
      have : |γ| ≤ 1 := by
        by_contra hc
        have : 2 ≤ |γ| := by omega
        have : 4 ≤ |γ| ^ 2 := by nlinarith
        rw [sq_abs] at this
        omega
      rw [abs_le] at this
      omega
    have main : ∀ α β δ : ℤ, α * δ - β = 1 →
        P = P * α ^ 2 + Q * α + R →
        Q' = 2 * P * α * β + Q * (α * δ + β) + 2 * R * δ →
        P = P * δ ^ 2 - Q' * δ + R' →
        Q = Q' ∧ R = R' ∧ P = R ∧ ((α = 0 ∧ β = -1 ∧ δ = 0 ∧ Q = 0) ∨
          (α = 0 ∧ β = -1 ∧ δ = 1 ∧ Q = R) ∨ (α = -1 ∧ β = -1 ∧ δ = 0 ∧ Q = R)) := by
      intro α β δ d0 d1 d2 d3
      obtain ⟨c1, c2, c3, c4⟩ := red_gamma_one hP h d1
      obtain ⟨c5, c6, c7, c8⟩ := red_gamma_one hP h' (x := -δ) (by linarith)
      subst c1
      subst c5
      have hQQ : Q = Q' := by
        have : Q ^ 2 = Q' ^ 2 := by linarith
        exact (sq_eq_sq₀ c2 c6).mp this
      subst hQQ
      refine ⟨rfl, rfl, rfl, ?_⟩
      rcases c4 with rfl | ⟨rfl, rfl⟩
      · have hb : β = -1 := by linarith
        subst hb
        rcases c8 with h0 | ⟨h1, h2⟩
        · left
          have : δ = 0 := by omega
          subst this
          exact ⟨rfl, rfl, rfl, by linarith⟩
        · right; left
          exact ⟨rfl, rfl, by omega, h2⟩
      · right; right
        have hb : β = -δ - 1 := by linarith
        subst hb
        have : Q * (2 * δ) = 0 := by linarith
        have : δ = 0 := by
          rcases mul_eq_zero.mp this with h | h <;> omega
        subst this
        exact ⟨rfl, by ring, rfl, rfl⟩
    rcases hg with rfl | rfl
    · obtain ⟨g1, g2, g3, g4⟩ := main α β δ (by linarith) (by linarith) (by linarith) (by linarith)
      refine ⟨rfl, g1, g2, ?_⟩
      rw [if_pos g3]
      rcases g4 with ⟨rfl, rfl, rfl, hq⟩ | ⟨rfl, rfl, rfl, hq⟩ | ⟨rfl, rfl, rfl, hq⟩
      · rw [if_pos hq]; simp [auts]
      · rw [if_neg (by omega), if_pos hq]; simp [auts]
      · rw [if_neg (by omega), if_pos hq]; simp [auts]
    · obtain ⟨g1, g2, g3, g4⟩ := main (-α) (-β) (-δ) (by linarith) (by linarith) (by linarith)
        (by linarith)
      refine ⟨rfl, g1, g2, ?_⟩
      rw [if_pos g3]
      rcases g4 with ⟨h1, h2, h3, hq⟩ | ⟨h1, h2, h3, hq⟩ | ⟨h1, h2, h3, hq⟩
      · obtain rfl : α = 0 := by omega
        obtain rfl : β = 1 := by omega
        obtain rfl : δ = 0 := by omega
        rw [if_pos hq]; simp [auts]
      · obtain rfl : α = 0 := by omega
        obtain rfl : β = 1 := by omega
        obtain rfl : δ = -1 := by omega
        rw [if_neg (by omega), if_pos hq]; simp [auts]
      · obtain rfl : α = 1 := by omega
        obtain rfl : β = 1 := by omega
        obtain rfl : δ = 0 := by omega
        rw [if_neg (by omega), if_pos hq]; simp [auts]

end Eclib.Forms
