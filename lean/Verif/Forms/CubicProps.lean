import Verif.Forms.HessReduce

/-! # C24, C55: hess_reduce and sl2_equivalent -/

namespace Eclib.Forms

open Eclib.Forms.Spec Props

/-- `s` was obtained from `s0` by a proper substitution `t` recorded in the matrix, up to sign -/
def C.Via (s0 s : C × U) : Prop :=
  ∃ t : M2, t.det = 1 ∧ s.2.toM = s0.2.toM * t ∧
    (s.1.fn = act s0.1.fn t ∨ s.1.fn = act s0.1.fn (-t))

theorem act_neg_mul (F : ℤ → ℤ → ℤ) (x y : M2) :
    act (act F (-x)) y = act F (-(x * y)) ∧ act (act F x) (-y) = act F (-(x * y)) ∧
      act (act F (-x)) (-y) = act F (x * y) := by
  refine ⟨?_, ?_, ?_⟩ <;> rw [act_mul] <;> simp

theorem C.via_refl (s : C × U) : C.Via s s :=
  ⟨1, by simp, by simp, Or.inl (by rw [act_one])⟩

theorem C.via_trans {r s t : C × U} (h1 : C.Via r s) (h2 : C.Via s t) : C.Via r t := by
  obtain ⟨x, a1, a2, a3⟩ := h1
  obtain ⟨y, b1, b2, b3⟩ := h2
  refine ⟨x * y, by rw [Matrix.det_mul, a1, b1]; rfl, by rw [b2, a2, mul_assoc], ?_⟩
  obtain ⟨n1, n2, n3⟩ := act_neg_mul r.1.fn x y
  rcases a3 with a3 | a3 <;> rcases b3 with b3 | b3 <;> rw [a3] at b3
  · left; rw [b3, act_mul]
  · right; rw [b3, n2]
  · right; rw [b3, n1]
  · left; rw [b3, n3]

theorem C.via_xShift (f : C) (m : U) (e : ℤ) : C.Via (f, m) (f.xShift m e) := by
  obtain ⟨h1, h2, _⟩ := C24_x_shift f m e
  exact ⟨_, by simp [Matrix.det_fin_two], h2, Or.inl h1⟩

theorem C.via_invert (f : C) (m : U) : C.Via (f, m) (f.invert m) := by
  obtain ⟨h1, h2, _⟩ := C24_invert_partial f m
  refine ⟨_, by simp [Matrix.det_fin_two], h2, Or.inr ?_⟩
  rw [h1]
  congr 1
  ext i j
  fin_cases i <;> fin_cases j <;> simp

theorem C.via_normalise (f : C) (m : U) : C.Via (f, m) (f.normalise m) := by
  obtain ⟨⟨w, hw, e1, e2⟩, _⟩ := C.normalise_spec f m
  refine ⟨w.toM, ?_, ?_, Or.inl ?_⟩
  · rw [← C22_det]; exact auts_det _ w hw
  · rw [e2, C22_mul]
  · rw [e1, C24_transform]

/-- the discriminant depends only on the form up to proper substitution -/
theorem C.disc_of_act {f g : C} {t : M2} (ht : t.det = 1) (h : g.fn = act f.fn t) :
    g.disc = f.disc := by
  have e : g = f.transform (ofM t) := by
    apply C.ext_fn
    rw [C24_transform, toM_ofM, h]
  rw [e, C24_transform_disc, C22_det, toM_ofM, ht]; ring

theorem C.disc_of_via {r s : C × U} (h : C.Via r s) : s.1.disc = r.1.disc := by
  obtain ⟨t, h1, _, h2 | h2⟩ := h
  · exact C.disc_of_act h1 h2
  · refine C.disc_of_act (t := -t) ?_ h2
    rw [Matrix.det_fin_two] at *
    simp only [Matrix.neg_apply]
    linarith

theorem pow_pos_of_ne (x : ℤ) (h : x ≠ 0) : 0 < x ^ 2 := by positivity

theorem C.pSemi_pos {f : C} (h : 0 < f.disc) : 0 < f.pSemi ∧ 0 < f.rSemi := by
  have h1 := C24_hessian_disc f
  have h2 := C24_syzygy f
  have h3 : 0 ≤ f.pSemi := by
    by_contra hc
    have : f.pSemi ^ 3 < 0 := by
      have : f.pSemi ^ 3 = f.pSemi * f.pSemi ^ 2 := by ring
      rw [this]
      exact mul_neg_of_neg_of_pos (by omega) (pow_pos_of_ne f.pSemi (by omega))
    have := sq_nonneg f.uSemi
    have := mul_nonneg h.le (sq_nonneg f.a)
    linarith
  have h4 : 0 < f.pSemi * f.rSemi := by
    have := sq_nonneg f.qSemi
    linarith
  have h5 : 0 < f.pSemi := lt_of_le_of_ne h3 (by rintro e; rw [← e] at h4; simp at h4)
  exact ⟨h5, (pos_iff_pos_of_mul_pos h4).mp h5⟩

theorem C.hessLoop_spec (n : ℕ) : ∀ (f : C) (m : U), 0 < f.disc → f.pSemi.toNat ≤ n →
    ∃ r, (∀ fuel, n + 1 ≤ fuel → C.hessLoop fuel (f, m) = some r) ∧ C.Via (f, m) r ∧
      -r.1.pSemi ≤ r.1.qSemi ∧ r.1.qSemi < r.1.pSemi ∧ r.1.pSemi ≤ r.1.rSemi := by
  induction n with
  | zero => intro f m hd hn; have := (C.pSemi_pos hd).1; omega
  | succ n ih =>
    intro f m hd hn
    have hP := (C.pSemi_pos hd).1
    obtain ⟨k, ek, k1, k2⟩ := roundover_spec (-f.qSemi) (2 * f.pSemi) (by omega)
    have hv1 := C.via_xShift f m k
    have hh := (C24_hessian_ops f m k).1
    have p1 : (f.xShift m k).1.pSemi = f.pSemi := congrArg Q.a hh
    have q1 : (f.xShift m k).1.qSemi = f.qSemi + 2 * (k * f.pSemi) := congrArg Q.b hh
    have q2 : -f.pSemi ≤ (f.xShift m k).1.qSemi ∧ (f.xShift m k).1.qSemi < f.pSemi := by
      rw [q1]
      have : 2 * (-f.qSemi - k * (2 * f.pSemi)) = -2 * (f.qSemi + 2 * (k * f.pSemi)) := by ring
      omega
    -- the state after the shift
    have hs1 : (if k ≠ 0 then f.xShift m k else (f, m)) = f.xShift m k := by
      by_cases hk : k = 0
      · subst hk
        simp [C.xShift, U.xShift]
      · simp [hk]
    by_cases hPR : (f.xShift m k).1.pSemi > (f.xShift m k).1.rSemi
    · -- inversion
      have hv2 := C.via_trans hv1 (C.via_invert (f.xShift m k).1 (f.xShift m k).2)
      have hd2 : 0 < ((f.xShift m k).1.invert (f.xShift m k).2).1.disc := by
        rw [C.disc_of_via hv2]; exact hd
      have hp2 : ((f.xShift m k).1.invert (f.xShift m k).2).1.pSemi = (f.xShift m k).1.rSemi :=
        congrArg Q.a (C24_invert_partial (f.xShift m k).1 (f.xShift m k).2).2.2.2.2
      obtain ⟨r, hr, hvr, hrest⟩ := ih ((f.xShift m k).1.invert (f.xShift m k).2).1
        ((f.xShift m k).1.invert (f.xShift m k).2).2 hd2 (by rw [hp2]; omega)
      refine ⟨r, ?_, C.via_trans hv2 hvr, hrest⟩
      intro fuel hf
      obtain ⟨j, rfl⟩ := Nat.exists_eq_succ_of_ne_zero (by omega : fuel ≠ 0)
      simp only [C.hessLoop, ek, Option.bind_some, hs1, if_pos hPR]
      exact hr j (by omega)
    · refine ⟨f.xShift m k, ?_, hv1, by rw [p1]; exact q2.1, by rw [p1]; exact q2.2, by omega⟩
      have last : ∀ j, C.hessLoop (j + 1) (f.xShift m k) = some (f.xShift m k) := by
        intro j
        obtain ⟨k', ek', l1, l2⟩ := roundover_spec (-(f.xShift m k).1.qSemi)
          (2 * (f.xShift m k).1.pSemi) (by rw [p1]; omega)
        have hk' : k' = 0 := by
          apply roundover_zero_iff (by rw [p1]; omega) ek'
          · rw [p1]; omega
          · rw [p1]; omega
        subst hk'
        have : f.xShift m k = ((f.xShift m k).1, (f.xShift m k).2) := rfl
        rw [this]
        simp only [C.hessLoop, ek', Option.bind_some, ne_eq, not_true_eq_false, if_false,
          if_neg hPR]
      intro fuel hf
      obtain ⟨j, rfl⟩ := Nat.exists_eq_succ_of_ne_zero (by omega : fuel ≠ 0)
      simp only [C.hessLoop, ek, Option.bind_some, hs1, if_neg hPR]
      by_cases hk : k = 0
      · simp [hk]
      · obtain ⟨i, rfl⟩ := Nat.exists_eq_succ_of_ne_zero (by omega : j ≠ 0)
        simp only [hk, ne_eq, not_false_eq_true, if_true]
        exact last i

theorem C.hessLoop_succ (n : ℕ) : ∀ (s r : C × U), C.hessLoop n s = some r →
    C.hessLoop (n + 1) s = some r := by
  induction n with
  | zero => intro s r h; simp [C.hessLoop] at h
  | succ n ih =>
    rintro ⟨f, m⟩ r h
    rw [C.hessLoop] at h ⊢
    cases hk : roundover (-f.qSemi) (2 * f.pSemi) with
    | none => rw [hk] at h; simp at h
    | some k =>
      rw [hk] at h
      simp only [Option.bind_some] at h ⊢
      split_ifs at h ⊢ <;> first | exact ih _ _ h | exact h

theorem C.hessReduce_mono {n k : ℕ} {f : C} {r : C × U} (hnk : n ≤ k)
    (h : C.hessReduce n f = some r) : C.hessReduce k f = some r := by
  induction hnk with
  | refl => exact h
  | step _ ih =>
    unfold C.hessReduce at ih ⊢
    rename_i j _
    cases hs : C.hessLoop j (f, U.one) with
    | none => rw [hs] at ih; simp at ih
    | some s => rw [C.hessLoop_succ _ _ _ hs]; rw [hs] at ih; exact ih

/-- the Hessian of a transformed cubic, coefficientwise -/
theorem C.hess_transform (f : C) (m : U) (hm : m.det = 1) :
    (f.transform m).hess = f.hess.transform m := by
  apply Q.ext_fn
  funext X Z
  rw [C23_transform]
  have := C24_hessian_covariant f m X Z
  rw [hm] at this
  simpa [Q.fn, C.hess] using this

/-- the automorphisms tried by `normalise` fix the Hessian -/
theorem C.hess_auts (f : C) (hd : 0 ≤ f.disc) (w : U) (hw : w ∈ auts f.nautos) :
    (f.transform w).hess = f.hess := by
  rw [C.hess_transform f w (auts_det _ w hw)]
  unfold C.nautos at hw
  rw [if_neg (by omega)] at hw
  have key : ∀ w ∈ auts 2, f.hess.transform w = f.hess := by
    intro w hw
    norm_num [auts] at hw
    rcases hw with rfl | rfl <;> ext <;> simp [Q.transform, Q.eval]
  split_ifs at hw with h1 h2 h3
  · have hb : f.hess.b = 0 := h2
    have hc : f.hess.c = f.hess.a := h1.symm
    simp only [auts, if_pos, List.mem_cons, List.not_mem_nil, or_false] at hw
    rcases hw with rfl | rfl | rfl | rfl <;> ext <;> simp [Q.transform, Q.eval, hb, hc]
  · have hb : f.hess.b = f.hess.a := by
      have : f.qSemi = f.pSemi := by rw [h3, h1]
      exact this
    have hc : f.hess.c = f.hess.a := h1.symm
    norm_num [auts] at hw
    rcases hw with rfl | rfl | rfl | rfl | rfl | rfl <;> ext <;>
      simp [Q.transform, Q.eval, hb, hc] <;> ring
  · exact key w hw
  · exact key w hw

/-- reduced (with respect to the Hessian) and normalised -/
def C.RedNorm (f : C) : Prop :=
  Red f.pSemi f.qSemi f.rSemi ∧ ∀ w ∈ auts f.nautos, ¬ f.lt (f.transform w) = true

theorem C.nautos_of_hess {f g : C} (h : f.hess = g.hess) (hd : 0 ≤ f.disc) (hd' : 0 ≤ g.disc) :
    f.nautos = g.nautos := by
  have h1 : f.pSemi = g.pSemi := congrArg Q.a h
  have h2 : f.qSemi = g.qSemi := congrArg Q.b h
  have h3 : f.rSemi = g.rSemi := congrArg Q.c h
  have e1 : ¬ f.disc < 0 := by omega
  have e2 : ¬ g.disc < 0 := by omega
  simp only [C.nautos, e1, e2, if_false, h1, h2, h3]

theorem C.normalise_redNorm (f : C) (m : U) (hd : 0 ≤ f.disc)
    (h : Red f.pSemi f.qSemi f.rSemi) : (f.normalise m).1.RedNorm := by
  obtain ⟨⟨w, hw, e1, e2⟩, hmax⟩ := C.normalise_spec f m
  have hh := C.hess_auts f hd w hw
  have hdw : (f.transform w).disc = f.disc := by
    rw [C24_transform_disc, auts_det _ w hw]; ring
  have hn : (f.transform w).nautos = f.nautos := C.nautos_of_hess hh (by omega) hd
  rw [e1] at hmax ⊢
  constructor
  · have h1 : (f.transform w).pSemi = f.pSemi := congrArg Q.a hh
    have h2 : (f.transform w).qSemi = f.qSemi := congrArg Q.b hh
    have h3 : (f.transform w).rSemi = f.rSemi := congrArg Q.c hh
    rw [h1, h2, h3]; exact h
  · intro v hv
    rw [hn] at hv
    rw [C.transform_transform]
    exact hmax _ (auts_closed _ w hw v hv)

theorem C.hessReduce_of_loop {fuel : ℕ} {f : C} {s : C × U}
    (h : C.hessLoop fuel (f, U.one) = some s) : C.hessReduce fuel f = some
      ((if s.1.pSemi = s.1.rSemi ∧ s.1.qSemi < 0 then s.1.invert s.2 else s).1.normalise
        (if s.1.pSemi = s.1.rSemi ∧ s.1.qSemi < 0 then s.1.invert s.2 else s).2) := by
  unfold C.hessReduce
  rw [h]
  rfl

/-- the final inversion -/
theorem C.final_red (s : C × U) (hP : 0 < s.1.pSemi) (h1 : -s.1.pSemi ≤ s.1.qSemi)
    (h2 : s.1.qSemi < s.1.pSemi) (h3 : s.1.pSemi ≤ s.1.rSemi) (r : C × U)
    (hr : r = if s.1.pSemi = s.1.rSemi ∧ s.1.qSemi < 0 then s.1.invert s.2 else s) :
    C.Via s r ∧ Red r.1.pSemi r.1.qSemi r.1.rSemi := by
  by_cases hc : s.1.pSemi = s.1.rSemi ∧ s.1.qSemi < 0
  · rw [if_pos hc] at hr
    have hi := (C24_invert_partial s.1 s.2).2.2.2.2
    rw [← hr] at hi
    have i1 : r.1.pSemi = s.1.rSemi := congrArg Q.a hi
    have i2 : r.1.qSemi = -s.1.qSemi := congrArg Q.b hi
    have i3 : r.1.rSemi = s.1.pSemi := congrArg Q.c hi
    refine ⟨?_, ?_⟩
    · rw [hr]; exact C.via_invert s.1 s.2
    · rw [i1, i2, i3]
      right
      omega
  · rw [if_neg hc] at hr
    subst hr
    refine ⟨C.via_refl _, ?_⟩
    rcases lt_or_eq_of_le h3 with h | h
    · exact Or.inl ⟨h1, h2, h⟩
    · refine Or.inr ⟨?_, by omega, h⟩
      by_contra hq
      exact hc ⟨h, by omega⟩

theorem C.hessReduce_spec (f : C) (hd : 0 < f.disc) :
    ∃ (N : ℕ) (r : C × U), (∀ fuel, N ≤ fuel → C.hessReduce fuel f = some r) ∧
      C.Via (f, U.one) r ∧ r.1.RedNorm := by
  obtain ⟨s, hs, hv, h1, h2, h3⟩ := C.hessLoop_spec f.pSemi.toNat f U.one hd (le_refl _)
  have hds := C.disc_of_via hv
  change s.1.disc = f.disc at hds
  have hP : 0 < s.1.pSemi := (C.pSemi_pos (hds ▸ hd)).1
  obtain ⟨r, hr⟩ : ∃ r, r = if s.1.pSemi = s.1.rSemi ∧ s.1.qSemi < 0 then s.1.invert s.2 else s :=
    ⟨_, rfl⟩
  obtain ⟨v, hred⟩ := C.final_red s hP h1 h2 h3 r hr
  refine ⟨f.pSemi.toNat + 1, r.1.normalise r.2, ?_, ?_, ?_⟩
  · intro fuel hf
    have := C.hessReduce_of_loop (hs fuel hf)
    rw [← hr] at this
    exact this
  · exact C.via_trans hv (C.via_trans v (C.via_normalise r.1 r.2))
  · apply C.normalise_redNorm _ _ _ hred
    rw [C.disc_of_via v, hds]
    exact hd.le

/-- reduced and normalised representatives are unique -/
theorem C.redNorm_unique {f g : C} (hd : 0 < f.disc) (hf : f.RedNorm) (hg : g.RedNorm)
    {t : M2} (ht : t.det = 1) (h : g.fn = act f.fn t) : f = g := by
  have e : g = f.transform (ofM t) := by
    apply C.ext_fn
    rw [C24_transform, toM_ofM, h]
  have hdet : (ofM t).det = 1 := by rw [C22_det, toM_ofM, ht]
  have hdg : g.disc = f.disc := C.disc_of_act ht h
  have hh : g.hess = f.hess.transform (ofM t) := by rw [e, C.hess_transform f _ hdet]
  have h1 : g.pSemi = _ := congrArg Q.a hh
  have h2 : g.qSemi = _ := congrArg Q.b hh
  have h3 : g.rSemi = _ := congrArg Q.c hh
  obtain ⟨r1, r2, r3, r4⟩ := red_unique (C.pSemi_pos hd).1
    (C.pSemi_pos (by omega : 0 < g.disc)).1 hf.1 hg.1 (ofM t) hdet
    (by rw [h1]; simp only [Q.transform, Q.eval, C.hess]; ring)
    (by rw [h2]; simp only [Q.transform, C.hess]; ring)
    (by rw [h3]; simp only [Q.transform, Q.eval, C.hess]; ring)
  have hn : f.nautos = g.nautos := by
    apply C.nautos_of_hess _ hd.le (by omega)
    ext
    · exact r1
    · exact r2
    · exact r3
  have hmem : ofM t ∈ auts f.nautos := by
    unfold C.nautos
    rw [if_neg (by omega)]
    exact r4
  apply C.eq_of_not_lt
  · rw [e]; exact hf.2 _ hmem
  · -- the inverse automorphism
    have hinv : ∀ n, ∀ v ∈ auts n, ∃ w ∈ auts n, v.mul w = U.one := by
      intro n
      unfold auts; split_ifs <;> decide
    obtain ⟨w, hw, hvw⟩ := hinv _ _ hmem
    have := hg.2 w (by rw [← hn]; exact hw)
    rw [e, C.transform_transform, hvw, C.transform_one] at this
    rw [e]; exact this

namespace Props

/-- `normalise(m)`: the cubic is replaced by the lexicographically largest of its images under the
listed substitutions (`±1`; with a Hessian `P(X²+Z²)` also `±S`; with a Hessian `P(X²+XZ+Z²)` also
the elements of order 3 and 6), and the matrix is multiplied by the substitution used. -/
theorem C24_normalise (f : C) (m : U) :
    ∃ w ∈ auts f.nautos, w.toM.det = 1 ∧ (f.normalise m).1.fn = act f.fn w.toM ∧
      (f.normalise m).2.toM = m.toM * w.toM ∧
      ∀ v ∈ auts f.nautos, ¬ (f.normalise m).1.lt (f.transform v) = true := by
  obtain ⟨⟨w, hw, e1, e2⟩, h⟩ := C.normalise_spec f m
  refine ⟨w, hw, ?_, ?_, ?_, h⟩
  · rw [← C22_det]; exact auts_det _ w hw
  · rw [e1, C24_transform]
  · rw [e2, C22_mul]

example : ((C.mk 0 (-1) (-1) 0).normalise U.one) = (⟨0, 1, 1, 0⟩, ⟨1, 1, -1, 0⟩) := by decide

/-- `hess_reduce(m)` for positive discriminant terminates.  The result has Hessian `(P,Q,R)` with
`-P ≤ Q < P < R` or `0 ≤ Q ≤ P = R`, the matrix has determinant 1 and the result is plus or minus
the original cubic with the substitution `m`.  Missing from the full claim: the sign, refuted by
`C24_hess_reduce_wrong`. -/
theorem C24_hess_reduce_partial (f : C) (hd : 0 < f.disc) :
    ∃ (N : ℕ) (g : C) (m : U), (∀ fuel, N ≤ fuel → f.hessReduce fuel = some (g, m)) ∧
      ((-g.pSemi ≤ g.qSemi ∧ g.qSemi < g.pSemi ∧ g.pSemi < g.rSemi) ∨
        (0 ≤ g.qSemi ∧ g.qSemi ≤ g.pSemi ∧ g.pSemi = g.rSemi)) ∧
      m.det = 1 ∧ g.disc = f.disc ∧
      ((∀ X Z, cub g.a g.b g.c g.d X Z = act (cub f.a f.b f.c f.d) m.toM X Z) ∨
       (∀ X Z, cub g.a g.b g.c g.d X Z = -act (cub f.a f.b f.c f.d) m.toM X Z)) := by
  obtain ⟨N, r, h1, h2, h3⟩ := C.hessReduce_spec f hd
  have hdisc := C.disc_of_via h2
  obtain ⟨t, t1, t2, t3⟩ := h2
  have ht : r.2.toM = t := by rw [t2, C22_one, one_mul]
  refine ⟨N, r.1, r.2, h1, h3.1, by rw [C22_det, ht, t1], hdisc, ?_⟩
  rcases t3 with e | e
  · left
    intro X Z
    rw [ht]
    exact congrFun (congrFun e X) Z
  · right
    intro X Z
    rw [ht]
    refine (congrFun (congrFun e X) Z).trans ?_
    simp only [C.fn, act, cub, Matrix.neg_apply]
    ring

example : 0 < (C.mk 1 5 2 (-3)).disc := by decide

/-- `hess_reduce` can return a matrix which does not describe the cubic it returns. -/
theorem C24_hess_reduce_wrong :
    ∃ f : C, 0 < f.disc ∧ ∃ (g : C) (m : U), (∀ fuel, 5 ≤ fuel → f.hessReduce fuel = some (g, m)) ∧
      g.fn ≠ act f.fn m.toM := by
  refine ⟨⟨3, 3, -3, -1⟩, by decide, ⟨1, -3, -3, 3⟩, ⟨0, -1, 1, 0⟩, ?_, ?_⟩
  · intro fuel hf
    exact C.hessReduce_mono hf (by decide)
  · intro h
    have := congrFun (congrFun h 1) 0
    simp [C.fn, act, cub, U.toM] at this

/-- `is_hessian_reduced` tests `-P < Q ≤ P < R` or `0 ≤ Q ≤ P = R` -/
theorem C24_is_hessian_reduced (f : C) : f.isHessianReduced = true ↔
    (-f.pSemi < f.qSemi ∧ f.qSemi ≤ f.pSemi ∧ f.pSemi < f.rSemi) ∨
      (0 ≤ f.qSemi ∧ f.qSemi ≤ f.pSemi ∧ f.pSemi = f.rSemi) := by
  simp only [C.isHessianReduced]
  split_ifs <;> simp <;> omega

/-- The output of `hess_reduce` need not satisfy `is_hessian_reduced`: the reduction aims at
`-P ≤ Q < P`, the test at `-P < Q ≤ P`. -/
theorem C24_hess_reduce_not_reduced :
    ∃ f : C, 0 < f.disc ∧ ∃ (g : C) (m : U), (∀ fuel, 5 ≤ fuel → f.hessReduce fuel = some (g, m)) ∧
      g.isHessianReduced = false := by
  refine ⟨⟨3, 3, -3, -1⟩, by decide, ⟨1, -3, -3, 3⟩, ⟨0, -1, 1, 0⟩, ?_, by decide⟩
  intro fuel hf
  exact C.hessReduce_mono hf (by decide)

/-- `sl2_equivalent` decides proper equivalence for cubics of positive discriminant. -/
theorem C55_sl2_equivalent (f g : C) (hd : 0 < f.disc) :
    ∃ N : ℕ, ∀ fuel, N ≤ fuel → ∃ b : Bool, C.sl2EquivalentPos fuel f g = some b ∧
      (b = true ↔ SL2Equiv (cub f.a f.b f.c f.d) (cub g.a g.b g.c g.d)) := by
  have hneg := C24_negate f U.one
  have hf1d : (f.negate U.one).1.disc = f.disc := hneg.2.2
  by_cases h1 : f = g
  · refine ⟨0, fun fuel _ => ⟨true, by simp [C.sl2EquivalentPos, h1], ?_⟩⟩
    simp only [true_iff]
    exact ⟨1, by simp, by rw [act_one, h1]⟩
  by_cases h2 : (f.negate U.one).1 = g
  · refine ⟨0, fun fuel _ => ⟨true, by simp [C.sl2EquivalentPos, h1, h2], ?_⟩⟩
    simp only [true_iff]
    refine ⟨!![-1, 0; 0, -1], by simp [Matrix.det_fin_two], ?_⟩
    have := hneg.1
    rw [h2] at this
    exact this
  by_cases h3 : (f.negate U.one).1.disc ≠ g.disc
  · refine ⟨0, fun fuel _ => ⟨false, by simp [C.sl2EquivalentPos, h1, h2, h3], ?_⟩⟩
    simp only [Bool.false_eq_true, false_iff]
    rintro ⟨M, hM, e⟩
    apply h3
    rw [hf1d]
    exact (C.disc_of_act (f := f) (g := g) hM e).symm
  · have h3' : (f.negate U.one).1.disc = g.disc := not_not.mp h3
    obtain ⟨N1, r1, e1, v1, n1⟩ := C.hessReduce_spec (f.negate U.one).1 (by omega)
    obtain ⟨N2, r2, e2, v2, n2⟩ := C.hessReduce_spec g (by omega)
    have hd1 := C.disc_of_via v1
    refine ⟨max N1 N2, fun fuel hf => ⟨decide (r1.1 = r2.1), ?_, ?_⟩⟩
    · simp [C.sl2EquivalentPos, h1, h2, h3, e1 fuel (le_trans (le_max_left _ _) hf),
        e2 fuel (le_trans (le_max_right _ _) hf)]
    · rw [decide_eq_true_iff]
      -- write the two reductions as substitutions
      have sub : ∀ {r : C × U} {f : C}, C.Via (f, U.one) r →
          ∃ t : M2, t.det = 1 ∧ r.1.fn = act f.fn t := by
        rintro r f ⟨t, t1, _, t3 | t3⟩
        · exact ⟨t, t1, t3⟩
        · refine ⟨-t, ?_, t3⟩
          rw [Matrix.det_fin_two] at *
          simp only [Matrix.neg_apply]
          linarith
      have inv : ∀ t : M2, t.det = 1 → ∃ s : M2, s.det = 1 ∧ t * s = 1 := by
        intro t ht
        refine ⟨t.adjugate, ?_, by rw [Matrix.mul_adjugate, ht, one_smul]⟩
        rw [Matrix.det_adjugate, ht, one_pow]
      obtain ⟨t1, ht1, f1⟩ := sub v1
      obtain ⟨t2, ht2, f2⟩ := sub v2
      rw [hneg.1, act_mul] at f1
      set n : M2 := !![-1, 0; 0, -1] * t1 with hn
      have hndet : n.det = 1 := by
        rw [hn, Matrix.det_mul, ht1]; simp [Matrix.det_fin_two]
      constructor
      · intro e
        rw [e, f2] at f1
        obtain ⟨s, hs1, hs2⟩ := inv t2 ht2
        refine ⟨n * s, by rw [Matrix.det_mul, hndet, hs1]; rfl, ?_⟩
        have : act (act g.fn t2) s = act (act f.fn n) s := by rw [f1]
        rw [act_mul, act_mul, hs2, act_one] at this
        exact this
      · rintro ⟨M, hM, e⟩
        obtain ⟨s, hs1, hs2⟩ := inv n hndet
        refine C.redNorm_unique (t := s * M * t2)
          (by rw [hd1]; change 0 < (f.negate U.one).1.disc; omega) n1 n2 ?_ ?_
        · rw [Matrix.det_mul, Matrix.det_mul, hs1, hM, ht2]; rfl
        · rw [f2, f1, act_mul]
          have e' : g.fn = act f.fn M := e
          rw [e', act_mul, ← mul_assoc, ← mul_assoc, hs2, one_mul]

example : 0 < (C.mk 1 0 (-3) 1).disc ∧ SL2Equiv (cub 1 0 (-3) 1) (cub 1 3 0 (-1)) :=
  ⟨by decide, !![1, 1; 0, 1], by simp [Matrix.det_fin_two], by
    funext X Z; simp [act, cub]; ring⟩

/-- `gl2_equivalent` decides equivalence for cubics of positive discriminant. -/
theorem C55_gl2_equivalent (f g : C) (hd : 0 < f.disc) :
    ∃ N : ℕ, ∀ fuel, N ≤ fuel → ∃ b : Bool, C.gl2EquivalentPos fuel f g = some b ∧
      (b = true ↔ GL2Equiv (cub f.a f.b f.c f.d) (cub g.a g.b g.c g.d)) := by
  obtain ⟨N1, h1⟩ := C55_sl2_equivalent f g hd
  obtain ⟨N2, h2⟩ := C55_sl2_equivalent f (g.transform ⟨-1, 0, 0, 1⟩) hd
  refine ⟨max N1 N2, fun fuel hf => ?_⟩
  obtain ⟨b1, e1, i1⟩ := h1 fuel (le_trans (le_max_left _ _) hf)
  obtain ⟨b2, e2, i2⟩ := h2 fuel (le_trans (le_max_right _ _) hf)
  refine ⟨b1 || b2, ?_, ?_⟩
  · cases b1 <;> simp [C.gl2EquivalentPos, e1, e2]
  · have hJ : (g.transform ⟨-1, 0, 0, 1⟩).fn = act g.fn !![-1, 0; 0, 1] := C24_transform g _
    have hJJ : (!![-1, 0; 0, 1] : M2) * !![-1, 0; 0, 1] = 1 := by
      ext i j; fin_cases i <;> fin_cases j <;> simp
    rw [Bool.or_eq_true, i1, i2]
    constructor
    · rintro (⟨M, hM, e⟩ | ⟨M, hM, e⟩)
      · exact ⟨M, Or.inl hM, e⟩
      · refine ⟨M * !![-1, 0; 0, 1], Or.inr ?_, ?_⟩
        · rw [Matrix.det_mul, hM]; simp [Matrix.det_fin_two]
        · have e' : (g.transform ⟨-1, 0, 0, 1⟩).fn = act f.fn M := e
          rw [hJ] at e'
          have := congrArg (fun F => act F !![-1, 0; 0, 1]) e'
          simp only [act_mul, hJJ, act_one] at this
          exact this
    · rintro ⟨M, hM | hM, e⟩
      · exact Or.inl ⟨M, hM, e⟩
      · refine Or.inr ⟨M * !![-1, 0; 0, 1], ?_, ?_⟩
        · rw [Matrix.det_mul, hM]; simp [Matrix.det_fin_two]
        · have e' : g.fn = act f.fn M := e
          have : (g.transform ⟨-1, 0, 0, 1⟩).fn = act f.fn (M * !![-1, 0; 0, 1]) := by
            rw [hJ, e', act_mul]
          exact this

end Props

end Eclib.Forms
