import Verif.Curve.NagellLutz

/-!
# C33: the order of a point

`order` adds the point to itself until the origin or a point with `Z > 8` appears.  The order it
returns is right (`C33_order`) and the loop ends for every point (`C33_order_terminates`).
-/

namespace Eclib.Curve

open WeierstrassCurve

/-! ### the multiples of a point of infinite order -/

theorem rat_int_of_sq {q : ℚ} {n : ℤ} (h : q ^ 2 = n) : ∃ m : ℤ, q = m := by
  have h1 : (q ^ 2).den = 1 := by rw [h]; exact Rat.den_intCast n
  rw [Rat.den_pow] at h1
  have h2 : q.den = 1 := by
    have := Nat.pow_eq_one.1 h1
    rcases this with h | h
    · exact h
    · omega
  exact ⟨q.num, by conv_lhs => rw [← Rat.num_div_den q, h2]
                   simp⟩

/-- the resultant of a cubic and its derivative (Silverman–Tate) -/
theorem cubic_disc (a b c x : ℤ) :
    ((18 * b - 6 * a ^ 2) * x - (4 * a ^ 3 - 15 * a * b + 27 * c)) *
        (x ^ 3 + a * x ^ 2 + b * x + c) +
      ((2 * a ^ 2 - 6 * b) * x ^ 2 + (2 * a ^ 3 - 7 * a * b + 9 * c) * x +
        (a ^ 2 * b + 3 * a * c - 4 * b ^ 2)) * (3 * x ^ 2 + 2 * a * x + b) =
      18 * a * b * c - 4 * a ^ 3 * c + a ^ 2 * b ^ 2 - 4 * b ^ 3 - 27 * c ^ 2 := by
  ring

/-- two integral points congruent modulo a good prime: the difference is not integral -/
theorem diff_not_int {p : ℕ} (hp : p.Prime) (h2 : p ≠ 2) (a b c : ℤ)
    (hd : ¬ (p : ℤ) ∣ 18 * a * b * c - 4 * a ^ 3 * c + a ^ 2 * b ^ 2 - 4 * b ^ 3 - 27 * c ^ 2)
    {x₁ y₁ x₂ y₂ : ℤ} (e1 : y₁ ^ 2 = x₁ ^ 3 + a * x₁ ^ 2 + b * x₁ + c)
    (e2 : y₂ ^ 2 = x₂ ^ 3 + a * x₂ ^ 2 + b * x₂ + c)
    (hne : x₁ ≠ x₂) (cx : (p : ℤ) ∣ x₁ - x₂) (cy : (p : ℤ) ∣ y₁ - y₂) {ℓ ν : ℚ} {x₃ : ℤ}
    (l1 : (y₁ : ℚ) = ℓ * x₁ + ν) (l2 : -(y₂ : ℚ) = ℓ * x₂ + ν)
    (s1 : (x₁ : ℚ) + x₂ + x₃ = ℓ ^ 2 - a) : False := by
  have hp' := Nat.prime_iff_prime_int.1 hp
  obtain ⟨m, rfl⟩ : ∃ m : ℤ, ℓ = m :=
    rat_int_of_sq (n := x₁ + x₂ + x₃ + a) (by push_cast; linear_combination -s1)
  have k1 : y₁ + y₂ = m * (x₁ - x₂) := by
    have : (y₁ + y₂ : ℚ) = m * (x₁ - x₂) := by linear_combination l1 - l2
    exact_mod_cast this
  have k2 : m * (y₁ - y₂) = x₁ ^ 2 + x₁ * x₂ + x₂ ^ 2 + a * (x₁ + x₂) + b := by
    apply mul_left_cancel₀ (sub_ne_zero.2 hne)
    linear_combination e1 - e2 - (y₁ - y₂) * k1
  have d1 : (p : ℤ) ∣ y₁ := by
    have : (p : ℤ) ∣ 2 * y₁ := by
      have h := dvd_add (k1 ▸ Dvd.dvd.mul_left cx m) cy
      rwa [show y₁ + y₂ + (y₁ - y₂) = 2 * y₁ by ring] at h
    rcases hp'.dvd_or_dvd this with h | h
    · exact absurd ((Nat.prime_dvd_prime_iff_eq hp Nat.prime_two).1 (by exact_mod_cast h)) h2
    · exact h
  have d2 : (p : ℤ) ∣ x₁ ^ 3 + a * x₁ ^ 2 + b * x₁ + c := e1 ▸ Dvd.dvd.pow d1 (by norm_num)
  have d3 : (p : ℤ) ∣ 3 * x₁ ^ 2 + 2 * a * x₁ + b := by
    have h := dvd_add (k2 ▸ Dvd.dvd.mul_left cy m) (Dvd.dvd.mul_left cx (2 * x₁ + x₂ + a))
    rwa [show x₁ ^ 2 + x₁ * x₂ + x₂ ^ 2 + a * (x₁ + x₂) + b + (2 * x₁ + x₂ + a) * (x₁ - x₂) =
      3 * x₁ ^ 2 + 2 * a * x₁ + b by ring] at h
  apply hd
  rw [← cubic_disc a b c x₁]
  exact dvd_add (Dvd.dvd.mul_left d2 _) (Dvd.dvd.mul_left d3 _)

theorem disc_eq (E : Cv) : 18 * E.B2 * E.B4 * E.B6 - 4 * E.B2 ^ 3 * E.B6 + E.B2 ^ 2 * E.B4 ^ 2 -
    4 * E.B4 ^ 3 - 27 * E.B6 ^ 2 = 256 * E.W.Δ := by
  simp only [Cv.B2, Cv.B4, Cv.B6, Cv.W, WeierstrassCurve.Δ, WeierstrassCurve.b₂,
    WeierstrassCurve.b₄, WeierstrassCurve.b₆, WeierstrassCurve.b₈]
  ring

/-- a point with `Z ≤ 8` has integral `ξ` and `η` -/
theorem int_of_Z {E : Cv} {P : P2} {x y : ℚ} {h : E.Q.toAffine.Nonsingular x y}
    (hP : Rep E P (.some x y h)) (hr : P2.Reduced P) (hz : P.Z ≤ 8) :
    ∃ ξ η : ℤ, 4 * x = ξ ∧ E.eta x y = η := by
  obtain ⟨u, d, hd, hX, hZ, -⟩ := reduced_shape ((P2.isvalid_iff E P).1 hP.valid).2 hr hP.1
  obtain ⟨-, hx, hy⟩ := hP
  have hd2 : d = 1 ∨ d = 2 := by
    have : d < 3 := by
      by_contra hn
      have : 3 ≤ d := by omega
      have : 3 ^ 3 ≤ d ^ 3 := pow_le_pow_left₀ (by norm_num) this 3
      omega
    omega
  rw [hX, hZ] at hx
  rw [hZ] at hy
  simp only [Cv.eta]
  rcases hd2 with rfl | rfl
  · push_cast at hx hy
    refine ⟨4 * u, 4 * (2 * P.Y + E.a1 * u + E.a3), ?_, ?_⟩
    · push_cast; linear_combination -4 * hx
    · push_cast; linear_combination -8 * hy - 4 * E.a1 * hx
  · push_cast at hx hy
    refine ⟨u, P.Y + E.a1 * u + 4 * E.a3, ?_, ?_⟩
    · linear_combination -(1 / 2) * hx
    · push_cast; linear_combination -hy - E.a1 / 2 * hx

/-- **A point of infinite order has a multiple with `Z > 8`.** -/
theorem multiples_unbounded {E : Cv} (hE : E.W.Δ ≠ 0) {A : E.Pt} (hA : addOrderOf A = 0) :
    ∃ m : ℕ, 1 ≤ m ∧ ∀ P, Rep E P (m • A) → P2.Reduced P → 8 < P.Z := by
  by_contra hcon
  push Not at hcon
  have hmul : ∀ m : ℕ, 1 ≤ m → m • A ≠ 0 := fun m hm h0 => by
    have := addOrderOf_dvd_iff_nsmul_eq_zero.2 h0
    rw [hA] at this
    have := Nat.eq_zero_of_zero_dvd this
    omega
  have hint : ∀ m : ℕ, ∃ ξ η : ℤ, ∃ x y h, (m + 1) • A = .some x y h ∧ 4 * x = ξ ∧ E.eta x y = η := by
    intro m
    obtain ⟨P, hP, hr, hz⟩ := hcon (m + 1) (by omega)
    have h0 := hmul (m + 1) (by omega)
    obtain ⟨B, hB⟩ : ∃ B, B = (m + 1) • A := ⟨_, rfl⟩
    rw [← hB] at hP h0 ⊢
    match B, hP, h0 with
    | .zero, _, h0 => exact absurd rfl h0
    | .some x y h, hP, _ =>
      obtain ⟨ξ, η, h1, h2⟩ := int_of_Z hP hr hz
      exact ⟨ξ, η, x, y, h, rfl, h1, h2⟩
  choose ξ η hc using hint
  obtain ⟨p, hpl, hp⟩ := Nat.exists_infinite_primes ((256 * E.W.Δ).natAbs + 3)
  have hpd : ¬ (p : ℤ) ∣ 256 * E.W.Δ := fun h => by
    have h1 := Int.natCast_dvd.1 h
    have h2 : 0 < (256 * E.W.Δ).natAbs := Int.natAbs_pos.2 (mul_ne_zero (by norm_num) hE)
    have := Nat.le_of_dvd h2 h1
    omega
  have : NeZero p := ⟨hp.ne_zero⟩
  obtain ⟨i, j, hij, he⟩ := Finite.exists_ne_map_eq_of_infinite
    (fun m : ℕ => ((ξ m : ZMod p), (η m : ZMod p)))
  wlog hlt : i < j generalizing i j
  · exact this j i hij.symm he.symm (by omega)
  simp only [Prod.mk.injEq] at he
  have cx : (p : ℤ) ∣ ξ j - ξ i := by
    have := (ZMod.intCast_eq_intCast_iff_dvd_sub _ _ _).1 he.1
    exact this
  have cy : (p : ℤ) ∣ η j - η i := (ZMod.intCast_eq_intCast_iff_dvd_sub _ _ _).1 he.2
  obtain ⟨x₁, y₁, h₁, p1, q1, r1⟩ := hc j
  obtain ⟨x₂, y₂, h₂, p2, q2, r2⟩ := hc i
  have hx : x₁ ≠ x₂ := by
    intro hx
    rcases Affine.Y_eq_of_X_eq h₁.1 h₂.1 hx with hy | hy
    · subst hx hy
      have h3 : (j + 1) • A = (i + 1) • A := p1.trans p2.symm
      have h4 : (j - i) • A = 0 := by
        have : (j + 1) • A = (j - i) • A + (i + 1) • A := by
          rw [← add_nsmul]; congr 1; omega
        rw [this] at h3
        simpa using h3
      exact hmul (j - i) (by omega) h4
    · have h3 : (j + 1) • A + (i + 1) • A = 0 := by
        rw [p1, p2]; exact Affine.Point.add_of_Y_eq hx hy
      rw [← add_nsmul] at h3
      exact hmul _ (by omega) h3
  have h₂' : E.Q.toAffine.Nonsingular x₂ (E.Q.toAffine.negY x₂ y₂) := (Affine.nonsingular_neg _ _).2 h₂
  obtain ⟨x₃, y₃, ℓ, ν, h₃, hs, l1, l2, -, s1, -, -⟩ :=
    third_point' h₁ h₂' (fun h => hx h.1)
  have hk : (j - i) • A = -.some _ _ h₃ := by
    rw [← hs, ← p1]
    have : (.some _ _ h₂' : E.Pt) = -((i + 1) • A) := by rw [p2]; rfl
    rw [this, ← sub_eq_add_neg, eq_sub_iff_add_eq, ← add_nsmul]
    congr 1; omega
  obtain ⟨x₄, y₄, h₄, p4, q4, -⟩ := hc (j - i - 1)
  rw [show j - i - 1 + 1 = j - i by omega, hk] at p4
  have hx34 : x₃ = x₄ := by
    change Affine.Point.some _ _ _ = Affine.Point.some _ _ _ at p4
    injection p4
  rw [r1, q1] at l1
  rw [Cv.eta_negY, r2, q2] at l2
  rw [hx34, q1, q2, q4] at s1
  have e1 := Cv.eta_sq h₁
  have e2 := Cv.eta_sq h₂
  rw [r1, q1] at e1
  rw [r2, q2] at e2
  refine diff_not_int hp (by omega) E.B2 E.B4 E.B6 (by rwa [disc_eq])
    (by exact_mod_cast e1) (by exact_mod_cast e2) ?_ cx cy l1 l2 s1
  intro h
  apply hx
  rw [h, ← q2] at q1
  linear_combination q1 / 4

/-! ### the loop -/

namespace P2

theorem order_of_rep {E : Cv} {P : P2} {A : E.Pt} (h : Rep E P A) (hr : Reduced P) :
    0 ≤ P.Z ∧ (P.Z = 0 ↔ A = 0) := ⟨hr.2, h.Z_eq_zero⟩

/-- what the loop finds: the first multiple which is the origin or has `Z > 8` -/
theorem orderLoop_spec {E : Cv} {P : P2} {A : E.Pt} (h : Rep E P A) (fuel : ℕ) :
    ∀ (q : P2) (k : ℕ), 1 ≤ k → Rep E q (k • A) → Reduced q →
      (∀ q' ord, orderLoop E P fuel q k = some (q', ord) →
        ∃ m : ℕ, k ≤ m ∧ ord = m ∧ Rep E q' (m • A) ∧ Reduced q' ∧ (q'.Z = 0 ∨ 8 < q'.Z) ∧
          ∀ i, k ≤ i → i < m → i • A ≠ 0) ∧
      (∀ m : ℕ, k ≤ m → m < k + fuel → (∀ R, Rep E R (m • A) → Reduced R → R.Z = 0 ∨ 8 < R.Z) →
        orderLoop E P fuel q k ≠ none) := by
  induction fuel with
  | zero =>
    intro q k hk hq hqr
    refine ⟨fun q' ord h => by simp [orderLoop] at h, fun m h1 h2 _ => by omega⟩
  | succ fuel ih =>
    intro q k hk hq hqr
    have hz := hqr.2
    rw [orderLoop]
    by_cases hc : (q.Z.sign ≠ 0 && q.Z ≤ 8) = true
    · rw [if_pos hc]
      simp only [ne_eq, Int.sign_eq_zero_iff_zero, decide_not, Bool.and_eq_true, Bool.not_eq_eq_eq_not,
        Bool.not_true, decide_eq_false_iff_not, decide_eq_true_eq] at hc
      have hadd : Rep E (addAssign E q P) ((k + 1) • A) := by
        rw [succ_nsmul]; exact hq.addAssign h
      have hred : Reduced (addAssign E q P) := reduced_reduce (hq.add h).nz
      obtain ⟨i1, i2⟩ := ih (addAssign E q P) (k + 1) (by omega) hadd hred
      push_cast at i1 i2
      refine ⟨fun q' ord ho => ?_, fun m h1 h2 hm => ?_⟩
      · obtain ⟨m, j1, j2, j3, j4, j5, j6⟩ := i1 q' ord ho
        refine ⟨m, by omega, j2, j3, j4, j5, fun i a b => ?_⟩
        by_cases hik : i = k
        · rw [hik]
          exact fun h0 => hc.1 (hq.Z_eq_zero.2 h0)
        · exact j6 i (by omega) b
      · refine i2 m ?_ (by omega) hm
        by_contra hlt
        have : m = k := by omega
        subst this
        have := hm q hq hqr
        omega
    · rw [if_neg hc]
      simp only [ne_eq, Int.sign_eq_zero_iff_zero, decide_not, Bool.and_eq_true, Bool.not_eq_eq_eq_not,
        Bool.not_true, decide_eq_false_iff_not, decide_eq_true_eq, not_and] at hc
      refine ⟨fun q' ord ho => ?_, fun _ _ _ _ => by simp⟩
      simp only [Option.some.injEq, Prod.mk.injEq] at ho
      obtain ⟨rfl, rfl⟩ := ho
      refine ⟨k, le_rfl, rfl, hq, hqr, ?_, fun i a b => by omega⟩
      by_cases h0 : q.Z = 0
      · exact Or.inl h0
      · right
        have := hc h0
        omega

/-- the loop of the second version: the list holds the multiples found so far -/
theorem orderListLoop_spec {E : Cv} {P : P2} {A : E.Pt} (h : Rep E P A) (q : P2)
    (ms : List P2) :
    ∀ (_ : 2 ≤ ms.length) (_ : ms.length ≤ 13) (_ : Rep E q ((ms.length - 1) • A)) (_ : Reduced q)
      (_ : q.Z ≠ 0)
      (_ : ∀ i (hi : i < ms.length), Rep E ms[i] (i • A) ∧ Reduced ms[i])
      (_ : ∀ i, 1 ≤ i → i < ms.length → i • A ≠ 0),
      let r := orderListLoop E P q ms
      ms.length ≤ r.2.length ∧ r.2.length ≤ 13 ∧
        (∀ i (hi : i < r.2.length), Rep E r.2[i] (i • A) ∧ Reduced r.2[i]) ∧
        (∀ i, 1 ≤ i → i < r.2.length → i • A ≠ 0) ∧
        ((r.1.Z = 0 ∧ r.2.length • A = 0) ∨
          (r.1.Z ≠ 0 ∧ (r.2.length = 13 ∨
            8 < r.1.Z ∧ Reduced r.1 ∧ Rep E r.1 ((r.2.length - 1) • A)))) := by
  fun_induction orderListLoop E P q ms with
  | case1 q ms hc q' hz ih =>
    intro h2 h13 hq hqr hq0 hms hne
    have hadd : Rep E q' (ms.length • A) := by
      have := hq.addAssign h
      rw [← succ_nsmul] at this
      rwa [show ms.length - 1 + 1 = ms.length by omega] at this
    have hred : Reduced q' := reduced_reduce (hq.add h).nz
    have hlen : (ms ++ [q']).length = ms.length + 1 := by simp
    have := ih (by omega) (by omega) (by rw [hlen]; exact hadd) hred hz ?_ ?_
    · obtain ⟨a, b, c, d, e⟩ := this
      exact ⟨by omega, b, c, d, e⟩
    · intro i hi
      by_cases hil : i < ms.length
      · rw [List.getElem_append_left hil]
        exact hms i hil
      · have : i = ms.length := by omega
        subst this
        simp only [List.getElem_concat_length]
        exact ⟨hadd, hred⟩
    · intro i h1 hi
      by_cases hil : i < ms.length
      · exact hne i h1 hil
      · have : i = ms.length := by omega
        subst this
        exact fun h0 => hz (hadd.Z_eq_zero.2 h0)
  | case2 q ms hc q' hz =>
    intro h2 h13 hq hqr hq0 hms hne
    have hadd : Rep E q' (ms.length • A) := by
      have := hq.addAssign h
      rw [← succ_nsmul] at this
      rwa [show ms.length - 1 + 1 = ms.length by omega] at this
    have hz' : q'.Z = 0 := by simpa using hz
    exact ⟨le_rfl, h13, hms, hne, Or.inl ⟨hz', hadd.Z_eq_zero.1 hz'⟩⟩
  | case3 q ms hc =>
    intro h2 h13 hq hqr hq0 hms hne
    refine ⟨le_rfl, h13, hms, hne, Or.inr ⟨hq0, ?_⟩⟩
    by_cases h8 : q.Z ≤ 8
    · left
      have : ¬ ms.length < 13 := fun h => hc ⟨hq0, h8, h⟩
      change ms.length = 13
      omega
    · exact Or.inr ⟨not_le.1 h8, hqr, hq⟩

end P2

namespace Props

open P2

/-- **C33.** Whatever `order` returns is right: a positive result is the exact order of the point,
`-1` is returned for points of infinite order only, and no other values occur.  `addOrderOf` is
the order in the group of rational points (0 for infinite order). -/
theorem C33_order (E : Cv) (P : P2) (A : E.Pt) (h : Rep E P A) (hr : Reduced P)
    (fuel : ℕ) (n : ℤ) (ho : order E fuel P = some n) :
    (0 < addOrderOf A ∧ n = addOrderOf A) ∨ (addOrderOf A = 0 ∧ n = -1) := by
  have hbig : ∀ (m : ℕ) (R : P2), Rep E R (m • A) → Reduced R → 8 < R.Z → addOrderOf A = 0 := by
    intro m R hR hRr hz
    by_contra hne
    have hpos : 0 < addOrderOf A := Nat.pos_of_ne_zero hne
    have : 0 < addOrderOf (m • A) :=
      IsOfFinAddOrder.addOrderOf_pos ((addOrderOf_pos_iff.1 hpos).nsmul)
    have := torsion_Z hR hRr this
    omega
  unfold order at ho
  split_ifs at ho with h1 h2
  · simp only [Option.some.injEq] at ho
    have : A = 0 := h.Z_eq_zero.1 h1
    subst this
    left
    rw [addOrderOf_zero]
    exact ⟨one_pos, ho.symm⟩
  · simp only [Option.some.injEq] at ho
    right
    exact ⟨hbig 1 P (by rwa [one_nsmul]) hr h2, ho.symm⟩
  · cases hl : orderLoop E P fuel P 1 with
    | none => simp [hl] at ho
    | some r =>
      obtain ⟨q, ord⟩ := r
      have hs := (orderLoop_spec h fuel P 1 le_rfl (by rwa [one_nsmul]) hr).1 q ord
        (by exact_mod_cast hl)
      obtain ⟨m, j1, j2, j3, j4, j5, j6⟩ := hs
      simp only [hl, Option.bind_eq_bind, Option.bind_some, ne_eq, Int.sign_eq_zero_iff_zero,
        ite_not] at ho
      split_ifs at ho with hq
      · left
        simp only [Option.some.injEq] at ho
        have hm0 : m • A = 0 := j3.Z_eq_zero.1 hq
        have hm : addOrderOf A = m := by
          rw [addOrderOf_eq_iff (by omega)]
          exact ⟨hm0, fun i hi hi0 => j6 i (by omega) hi⟩
        rw [hm]
        exact ⟨by omega, by rw [← ho, j2]⟩
      · right
        simp only [Option.some.injEq] at ho
        rcases j5 with h0 | h8
        · exact absurd h0 hq
        · exact ⟨hbig m q j3 j4 h8, ho.symm⟩

/-- **C33.** The loop of `order` ends for every point of a nonsingular curve. -/
theorem C33_order_terminates (E : Cv) (hE : E.W.Δ ≠ 0) (P : P2) (A : E.Pt) (h : Rep E P A)
    (hr : Reduced P) : ∃ fuel, ∀ fuel', fuel ≤ fuel' → order E fuel' P ≠ none := by
  have hm : ∃ m : ℕ, 1 ≤ m ∧ ∀ R, Rep E R (m • A) → Reduced R → R.Z = 0 ∨ 8 < R.Z := by
    by_cases h0 : addOrderOf A = 0
    · obtain ⟨m, h1, h2⟩ := multiples_unbounded hE h0
      exact ⟨m, h1, fun R a b => Or.inr (h2 R a b)⟩
    · refine ⟨addOrderOf A, by omega, fun R a _ => Or.inl ?_⟩
      rw [a.Z_eq_zero, addOrderOf_nsmul_eq_zero]
  obtain ⟨m, h1, h2⟩ := hm
  refine ⟨m, fun fuel' hf => ?_⟩
  unfold order
  split_ifs with a b
  · simp
  · simp
  · have := (orderLoop_spec h fuel' P 1 le_rfl (by rwa [one_nsmul]) hr).2 m h1 (by omega) h2
    cases hl : orderLoop E P fuel' P 1 with
    | none => exact absurd (by exact_mod_cast hl) this
    | some r =>
      simp only [Option.bind_eq_bind, Option.bind_some]
      split_ifs <;> simp

/-- **C33, list version.**  The list holds the multiples `0, P, 2P, …` in order; a positive
result is the exact order and the list then consists of all multiples; `-1` is returned for
points of infinite order only.

What is missing for the full claim: the bound `addOrderOf A ≤ 12`, which is a consequence of
Mazur's theorem, appears as a hypothesis. -/
theorem C33_order_list_partial (E : Cv) (P : P2) (A : E.Pt) (h : Rep E P A) (hr : Reduced P)
    (mazur : addOrderOf A ≤ 12) :
    (orderList E P).1 = (if addOrderOf A = 0 then -1 else (addOrderOf A : ℤ)) ∧
      (0 < addOrderOf A → (orderList E P).2.length = addOrderOf A) ∧
      ∀ i (hi : i < (orderList E P).2.length), Rep E (orderList E P).2[i] (i • A) := by
  by_cases hz : P.Z = 0
  · have hA : A = 0 := h.Z_eq_zero.1 hz
    subst hA
    simp only [orderList, hz, ↓reduceIte, addOrderOf_zero, List.length_singleton, one_ne_zero,
      Nat.cast_one, true_and]
    refine ⟨fun _ => trivial, fun i hi => ?_⟩
    have : i = 0 := by omega
    subst this
    simpa using rep_zero E
  · have hA : A ≠ 0 := fun h0 => hz (h.Z_eq_zero.2 h0)
    have H := orderListLoop_spec h P [zero, P] (by simp) (by simp) (by simpa using h) hr hz
      (by
        intro i hi
        have : i = 0 ∨ i = 1 := by simp at hi; omega
        rcases this with rfl | rfl
        · simpa using ⟨rep_zero E, reduced_zero⟩
        · simpa using ⟨h, hr⟩)
      (by
        intro i h1 hi
        have : i = 1 := by simp at hi; omega
        subst this
        simpa using hA)
    have h2 : (orderList E P).2 = (orderListLoop E P P [zero, P]).2 := by
      simp only [orderList, hz, ↓reduceIte]
    have h1 : (orderList E P).1 = if (orderListLoop E P P [zero, P]).1.Z = 0 then
        ((orderListLoop E P P [zero, P]).2.length : Int) else -1 := by
      simp only [orderList, hz, ↓reduceIte]
    simp only [h1, h2]
    obtain ⟨a, b, c, d, e⟩ := H
    simp only [List.length_cons, List.length_nil, zero_add, Nat.reduceAdd] at a
    rcases e with ⟨e1, e2⟩ | ⟨e1, e2⟩
    · have ho : addOrderOf A = (orderListLoop E P P [zero, P]).2.length := by
        rw [addOrderOf_eq_iff (by omega)]
        exact ⟨e2, fun i hi hi0 => d i (by omega) hi⟩
      rw [if_pos e1, if_neg (by omega), ho]
      exact ⟨rfl, fun _ => rfl, fun i hi => (c i hi).1⟩
    · have ho : addOrderOf A = 0 := by
        by_contra hne
        have hpos : 0 < addOrderOf A := Nat.pos_of_ne_zero hne
        rcases e2 with e2 | ⟨e2, e3, e4⟩
        · exact d (addOrderOf A) (by omega) (by omega) (addOrderOf_nsmul_eq_zero A)
        · have : 0 < addOrderOf (((orderListLoop E P P [zero, P]).2.length - 1) • A) :=
            IsOfFinAddOrder.addOrderOf_pos ((addOrderOf_pos_iff.1 hpos).nsmul)
          have := torsion_Z e4 e3 this
          omega
      rw [if_neg e1, ho]
      exact ⟨rfl, fun h => absurd h (lt_irrefl _), fun i hi => (c i hi).1⟩

/-- a point of order 5 on `y² + y = x³ - x²` -/
example : order ⟨0, -1, 1, 0, 0⟩ 10 ⟨0, 0, 1⟩ = some 5 := by decide +kernel

/-- a point of infinite order on `y² + y = x³ - x` -/
example : order ⟨0, 0, 1, -1, 0⟩ 20 ⟨0, 0, 1⟩ = some (-1) := by decide +kernel

example : (orderList ⟨0, -1, 1, 0, 0⟩ ⟨0, 0, 1⟩).1 = 5 := by
  simp only [orderList]; decide +kernel

/-- a point of order 2 with `Z = 8`: `(-1/4, 1/8)` on `y² + xy = x³ - 4x - 1` -/
example : order ⟨1, 0, 0, -4, -1⟩ 20 ⟨-2, 1, 8⟩ = some 2 := by decide +kernel

end Props

end Eclib.Curve
