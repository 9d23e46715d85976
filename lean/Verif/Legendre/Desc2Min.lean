import Verif.Legendre.Desc2
import Verif.Forms.MinimAll

/-!
# Minimisation and reduction of the quartic in `process_d3`
-/

namespace Eclib.Desc2

open Legendre (CParam)
open Marith (XGcd)
open Forms (Q G SU Moved NonminSol minimAllP minimAllP_ok)
open Forms.Spec (quad quart act)
open Spec (IsPrimeDivisorList)

theorem Tr.refl (g : G) : Tr g SU.one g :=
  ⟨by simp [SU.one], by simp [SU.one, Forms.U.one], fun X Z => by simp [SU.one, Forms.U.one]⟩

theorem Tr.moved {g0 g g' : G} {m m' : SU} {k : ℤ} (h : Tr g0 m g) (hk : k ≠ 0) (hm : Moved k (g, m) (g', m')) :
    Tr g0 m' g' := by
  obtain ⟨t, u, ht, hu, h1, h2, h3⟩ := hm
  dsimp only at h1 h2 h3
  have u0 : u ≠ 0 := hu ▸ mul_ne_zero hk ht
  have e11 := congrFun (congrFun h1 0) 0
  have e12 := congrFun (congrFun h1 0) 1
  have e21 := congrFun (congrFun h1 1) 0
  have e22 := congrFun (congrFun h1 1) 1
  simp only [Forms.U.toM, Matrix.mul_apply, Fin.sum_univ_two, Matrix.of_apply, Matrix.cons_val_zero,
    Matrix.cons_val_one, Matrix.cons_val', Matrix.cons_val_fin_one] at e11 e12 e21 e22
  rw [Matrix.det_fin_two] at ht
  refine ⟨by rw [h2]; exact mul_ne_zero h.u u0, ?_, ?_⟩
  · have : m'.m11 * m'.m22 - m'.m12 * m'.m21 =
        (m.m11 * m.m22 - m.m12 * m.m21) * (t 0 0 * t 1 1 - t 0 1 * t 1 0) := by
      rw [e11, e12, e21, e22]; ring
    rw [this]
    exact mul_ne_zero h.det ht
  · intro X Z
    have h4 := h3 X Z
    have h5 := h.eqn (t 0 0 * X + t 0 1 * Z) (t 1 0 * X + t 1 1 * Z)
    simp only [act, G.fn] at h4
    rw [h2, e11, e12, e21, e22]
    rw [show (m.m11 * t 0 0 + m.m12 * t 1 0) * X + (m.m11 * t 0 1 + m.m12 * t 1 1) * Z =
      m.m11 * (t 0 0 * X + t 0 1 * Z) + m.m12 * (t 1 0 * X + t 1 1 * Z) by ring,
      show (m.m21 * t 0 0 + m.m22 * t 1 0) * X + (m.m21 * t 0 1 + m.m22 * t 1 1) * Z =
      m.m21 * (t 0 0 * X + t 0 1 * Z) + m.m22 * (t 1 0 * X + t 1 1 * Z) by ring, ← h5, ← h4]
    ring

/-! ## no rational root -/

/-- the quartic has no rational zero -/
def NoRoot (g : G) : Prop := ∀ x z : ℤ, ¬ (x = 0 ∧ z = 0) → g.fn x z ≠ 0

theorem NoRoot.of_tr {g0 g : G} {m : SU} (h : NoRoot g0) (ht : Tr g0 m g) : NoRoot g := by
  intro x z hne h0
  refine h (m.m11 * x + m.m12 * z) (m.m21 * x + m.m22 * z) ?_ ?_
  · have := (ht.point (x := x) (y := 0) (z := z) ⟨by
      have : quart g.a g.b g.c g.d g.e x z = 0 := h0
      rw [this]; norm_num, hne⟩).2
    exact this
  · have := ht.eqn x z
    have e : quart g.a g.b g.c g.d g.e x z = 0 := h0
    rw [e, mul_zero] at this
    exact this.symm

theorem noRoot_quarticOf {q1 q3 Q1 Q2 Q3 : Q} {d1 d3 : ℤ} (H : CParam q1.a q1.b q1.c d3 Q1 Q2 Q3) (h3 : d3 ≠ 0)
    (hq1 : q1.b ^ 2 - 4 * q1.a * q1.c ≠ 0) (hd : q3.b ^ 2 - 4 * q3.a * q3.c = 4 * d1) (hn : ¬ IsSquare d1)
    (ha : q3.a ≠ 0) : NoRoot (quarticOf q3 Q1 Q3 d3) := by
  intro x z hne h0
  have hXY := CParam.ne_zero H h3 hq1 hne
  have e : (quarticOf q3 Q1 Q3 d3).fn x z =
      d3 * quad q3.a q3.b q3.c (quad Q1.a Q1.b Q1.c x z) (quad Q3.a Q3.b Q3.c x z) := by
    simp only [quarticOf, G.fn, quart, quad, Q.eval]; ring
  rw [e] at h0
  have h1 := (mul_eq_zero.mp h0).resolve_left h3
  generalize quad Q1.a Q1.b Q1.c x z = X at *
  generalize quad Q3.a Q3.b Q3.c x z = Y at *
  simp only [quad] at h1
  have h2 : (2 * Y) ^ 2 * d1 = (2 * q3.a * X + q3.b * Y) ^ 2 := by
    linear_combination -4 * q3.a * h1 - Y ^ 2 * hd
  by_cases hY : Y = 0
  · rw [hY] at h1
    refine hXY ⟨?_, hY⟩
    have : q3.a * X ^ 2 = 0 := by linear_combination h1
    simpa [ha] using this
  · obtain ⟨r, hr⟩ := sq_of_mul_sq (mul_ne_zero two_ne_zero hY) h2
    exact hn ⟨r, by rw [hr, sq]⟩

/-! ## the loop with `reduce` -/

theorem reduceG_ok {redQ : G → Forms.U} {g : G} (hr : (redQ g).det ≠ 0) (hg : NoRoot g) :
    ∃ g' n, reduceG redQ g Forms.U.one = some (g', n) ∧ n.det ≠ 0 ∧
      ∀ X Z, g'.fn X Z = g.fn (n.m11 * X + n.m12 * Z) (n.m21 * X + n.m22 * Z) := by
  have e1 : Forms.U.one.mul (redQ g) = redQ g := by
    ext <;> simp [Forms.U.one, Forms.U.mul]
  have ap : ∀ X Z, (g.apply (redQ g)).fn X Z =
      g.fn ((redQ g).m11 * X + (redQ g).m12 * Z) ((redQ g).m21 * X + (redQ g).m22 * Z) := fun X Z => by
    rw [Forms.Props.C25_apply_transform]; rfl
  have ha : (g.apply (redQ g)).a ≠ 0 := by
    have h1 := ap 1 0
    have h2 : (g.apply (redQ g)).fn 1 0 = (g.apply (redQ g)).a := by simp [G.fn, quart]
    rw [h2] at h1
    rw [h1]
    apply hg
    rintro ⟨h3, h4⟩
    apply hr
    simp only [mul_one, mul_zero, add_zero] at h3 h4
    simp [Forms.U.det, h3, h4]
  unfold reduceG
  dsimp only
  rw [if_neg (mul_ne_zero (by norm_num) ha), e1]
  generalize ((Marith.mod (g.apply (redQ g)).b (4 * (g.apply (redQ g)).a) - (g.apply (redQ g)).b).fdiv
    (4 * (g.apply (redQ g)).a)) = al
  split_ifs with h
  · obtain ⟨h1, -, -⟩ := Forms.Props.C25_xshift (g.apply (redQ g)) (redQ g) al
    refine ⟨((g.apply (redQ g)).xshift (redQ g) al).1, ((g.apply (redQ g)).xshift (redQ g) al).2, rfl, ?_, ?_⟩
    · have : ((g.apply (redQ g)).xshift (redQ g) al).2.det = (redQ g).det := by
        simp only [G.xshift, Forms.U.xShift, Forms.U.det]; ring
      rw [this]; exact hr
    · intro X Z
      rw [h1]
      simp only [act, Matrix.of_apply, Matrix.cons_val_zero, Matrix.cons_val_one, Matrix.cons_val',
        Matrix.cons_val_fin_one]
      rw [ap]
      simp only [G.xshift, Forms.U.xShift]
      congr 1 <;> ring
  · exact ⟨_, _, rfl, hr, ap⟩

theorem Tr.mulU {g0 g g' : G} {m : SU} {n : Forms.U} (h : Tr g0 m g) (hn : n.det ≠ 0)
    (hg : ∀ X Z, g'.fn X Z = g.fn (n.m11 * X + n.m12 * Z) (n.m21 * X + n.m22 * Z)) : Tr g0 (m.mulU n) g' := by
  refine ⟨h.u, ?_, ?_⟩
  · have : (m.mulU n).m11 * (m.mulU n).m22 - (m.mulU n).m12 * (m.mulU n).m21 =
        (m.m11 * m.m22 - m.m12 * m.m21) * n.det := by
      simp only [SU.mulU, Forms.U.mul, Forms.U.det]; ring
    rw [this]
    exact mul_ne_zero h.det hn
  · intro X Z
    have h1 := hg X Z
    have h2 := h.eqn (n.m11 * X + n.m12 * Z) (n.m21 * X + n.m22 * Z)
    simp only [G.fn] at h1
    simp only [SU.mulU, Forms.U.mul]
    rw [h1, h2]
    congr 1 <;> ring

theorem reduceLoop_ok {redQ : G → Forms.U} (hr : ∀ g, g.disc ≠ 0 → (redQ g).det ≠ 0) {g0 : G} (hd : g0.disc ≠ 0)
    (h0 : NoRoot g0) : ∀ (k : ℕ) (first : Bool) (g : G) (m : SU), Tr g0 m g →
      ∃ w, reduceLoop redQ k first g m = some w ∧ Tr g0 w.2 w.1
  | 0, _, g, m, h => ⟨(g, m), rfl, h⟩
  | k + 1, first, g, m, h => by
    obtain ⟨g', n, e, hn, hg⟩ := reduceG_ok (hr g (h.disc hd)) (h0.of_tr h)
    have h' := h.mulU hn hg
    rw [reduceLoop, e]
    dsimp only
    split_ifs
    · exact reduceLoop_ok hr hd h0 k false g' _ h'
    · exact ⟨_, rfl, h'⟩
    · exact ⟨_, rfl, h⟩

/-! ## the bad primes -/

theorem mem_setUnion (a b : List ℤ) (x : ℤ) : x ∈ setUnion a b ↔ x ∈ a ∨ x ∈ b := by
  fun_induction setUnion a b with
  | case1 b => simp
  | case2 a => simp
  | case3 y a z b h ih => simp only [List.mem_cons] at ih ⊢; rw [ih]; tauto
  | case4 y a z b h1 h2 ih => simp only [List.mem_cons] at ih ⊢; rw [ih]; tauto
  | case5 y a z b h1 h2 ih =>
    have : y = z := by omega
    subst this
    simp only [List.mem_cons] at ih ⊢; rw [ih]; tauto

theorem badPrimes_prime {pd : ℤ → List ℤ} (hpd : ∀ n, n ≠ 0 → IsPrimeDivisorList n (pd n)) {plist : List ℤ}
    (hpl : ∀ p ∈ plist, 0 < p ∧ Prime p) (g : G) : ∀ p ∈ badPrimes pd plist g, 0 < p ∧ Prime p := by
  intro p hp
  unfold badPrimes at hp
  dsimp only at hp
  split_ifs at hp with h
  · rcases (mem_setUnion _ _ _).mp hp with hp | hp
    · exact hpl p hp
    · have := ((hpd _ (by omega)).mem p).mp hp
      exact ⟨this.1, this.2.1⟩
  · exact hpl p hp

theorem natList {l : List ℤ} (h : ∀ p ∈ l, 0 < p ∧ Prime p) :
    ∃ ps : List ℕ, l = ps.map (fun p : ℕ => (p : ℤ)) ∧ ∀ p ∈ ps, p.Prime := by
  refine ⟨l.map Int.natAbs, ?_, ?_⟩
  · rw [List.map_map]
    conv_lhs => rw [← List.map_id l]
    apply List.map_congr_left
    intro p hp
    have := (h p hp).1
    simp only [id_eq, Function.comp_apply]
    omega
  · intro p hp
    obtain ⟨q, hq, rfl⟩ := List.mem_map.mp hp
    exact Int.prime_iff_natAbs_prime.mp (h q hq).2

/-- a quartic which is not minimal at `p` has a discriminant divisible by `p¹²`, and by `3¹⁵` for `p = 3` -/
theorem nonmin_disc {p : ℕ} {g : G} (h : NonminSol p g.II g.JJ) :
    (p ≠ 3 → (p : ℤ) ^ 12 ∣ g.disc) ∧ (p = 3 → (3 : ℤ) ^ 15 ∣ g.disc) := by
  rw [← Forms.disc_eq]
  rcases h with ⟨p3, ⟨i, hi⟩, ⟨j, hj⟩⟩ | ⟨p3, ⟨⟨i, hi⟩, ⟨j, hj⟩⟩ | ⟨-, -, -, h⟩⟩
  · exact ⟨fun _ => ⟨4 * i ^ 3 - j ^ 2, by rw [hi, hj]; ring⟩, fun h => absurd h p3⟩
  · exact ⟨fun h => absurd p3 h, fun _ => ⟨4 * i ^ 3 - 27 * j ^ 2, by rw [hi, hj]; ring⟩⟩
  · exact ⟨fun h => absurd p3 h, fun _ => h⟩

/-- the primes outside the list at which the quartic is not minimal: there are none -/
theorem extra_minimal {c d1 d2 d3 : ℤ} {g0 g g' : G} {k l : ℤ} {m m' : SU} {p : ℕ} (hp : p.Prime)
    (hdisc : g0.disc = 110592 * d3 ^ 12 * (d1 * d2) ^ 2 * (c ^ 2 - 4 * d1 * d2))
    (hs : ∀ X Z, k ^ 2 * g.fn X Z = g0.fn X Z) (hm : Moved l (g, m) (g', m'))
    (hn : NonminSol p g'.II g'.JJ) (h2 : ¬ (p : ℤ) ∣ 2) (h1 : ¬ (p : ℤ) ∣ d1) (h2' : ¬ (p : ℤ) ∣ d2)
    (h3 : ¬ (p : ℤ) ∣ d3) (hD : ¬ (p : ℤ) ∣ c ^ 2 - 4 * d1 * d2) : False := by
  have hpi : Prime (p : ℤ) := Nat.prime_iff_prime_int.mp hp
  have e : g.smul (k ^ 2) = g0 := by
    apply G.ext_fn
    funext X Z
    rw [G.fn_smul, hs]
  have hd : k ^ 12 * g.disc = g0.disc := by
    rw [← e]
    simp only [G.disc, G.II, G.JJ, G.smul]; ring
  have hgn : NonminSol p g.II g.JJ := hm.nonmin hn
  obtain ⟨a, b⟩ := nonmin_disc hgn
  have hu : ¬ (p : ℤ) ∣ 2 ^ 12 * (d3 ^ 12 * (d1 * d2) ^ 2 * (c ^ 2 - 4 * d1 * d2)) := by
    intro h
    rcases hpi.dvd_or_dvd h with h | h
    · exact h2 (hpi.dvd_of_dvd_pow h)
    rcases hpi.dvd_or_dvd h with h | h
    · rcases hpi.dvd_or_dvd h with h | h
      · exact h3 (hpi.dvd_of_dvd_pow h)
      · rcases hpi.dvd_or_dvd (hpi.dvd_of_dvd_pow h) with h | h
        · exact h1 h
        · exact h2' h
    · exact hD h
  have e0 : g0.disc = 27 * (2 ^ 12 * (d3 ^ 12 * (d1 * d2) ^ 2 * (c ^ 2 - 4 * d1 * d2))) := by
    rw [hdisc]; ring
  by_cases p3 : p = 3
  · obtain ⟨q, hq⟩ := b p3
    apply hu
    rw [p3]
    refine ⟨k ^ 12 * (3 ^ 11 * q), ?_⟩
    rw [hq] at hd
    rw [← hd] at e0
    push_cast
    linarith
  · have : (p : ℤ) ∣ g0.disc := by
      rw [← hd]
      exact Dvd.dvd.mul_left ((dvd_pow_self _ (by norm_num)).trans (a p3)) _
    rw [e0] at this
    rcases hpi.dvd_or_dvd this with h | h
    · have h : (p : ℤ) ∣ 3 := hpi.dvd_of_dvd_pow (show (p : ℤ) ∣ 3 ^ 3 by norm_num; exact h)
      have h : p ∣ 3 := by exact_mod_cast h
      exact p3 ((Nat.prime_dvd_prime_iff_eq hp Nat.prime_three).mp h)
    · exact hu h

/-- the two calls of `minim_all` in `process_d3` -/
theorem minim_ok (X : XGcd) {c d1 d2 d3 : ℤ} {g0 g : G} {k : ℤ} {plist bp : List ℤ}
    (hbp : ∀ p ∈ bp, 0 < p ∧ Prime p)
    (sup : ∀ p, 0 < p → Prime p → p ∉ plist → ¬ p ∣ 2 ∧ ¬ p ∣ d1 ∧ ¬ p ∣ d2 ∧ ¬ p ∣ d3 ∧ ¬ p ∣ c ^ 2 - 4 * d1 * d2)
    (hdisc : g0.disc = 110592 * d3 ^ 12 * (d1 * d2) ^ 2 * (c ^ 2 - 4 * d1 * d2))
    (hs : ∀ X Z, k ^ 2 * g.fn X Z = g0.fn X Z) (hd : g.disc ≠ 0) :
    ∀ r, r = minimAllP X false bp g SU.one g.II g.JJ → Tr g r.2.1 r.1 ∧
      ((∀ p ∈ plist, LocSol.PointAt r.1 p) → ∀ t, t = minimAllP X true bp r.1 r.2.1 r.2.2.1 r.2.2.2.1 →
        Tr g t.2.1 t.1) := by
  obtain ⟨ps, rfl, hps⟩ := natList hbp
  intro r hr
  obtain ⟨a, b, -, ⟨l, l0, -, d⟩, -⟩ := minimAllP_ok X false ps g SU.one hps hd (by simp) r hr
  have T := (Tr.refl g).moved (k := l) (by exact_mod_cast l0) d
  refine ⟨T, fun hel t ht => ?_⟩
  rw [a, b] at ht
  obtain ⟨-, -, -, ⟨l', l0', -, d'⟩, -⟩ := minimAllP_ok X true ps r.1 r.2.1 hps (T.disc hd) (by
    intro _ p hp _ hn
    by_cases hmem : (p : ℤ) ∈ plist
    · exact (hel _ hmem).2 p (hps p hp) rfl
    · obtain ⟨s1, s2, s3, s4, s5⟩ := sup p (by exact_mod_cast (hps p hp).pos) (Nat.prime_iff_prime_int.mp (hps p hp)) hmem
      exact (extra_minimal (hps p hp) hdisc hs d hn s1 s2 s3 s4 s5).elim) t ht
  exact T.moved (k := l') (by exact_mod_cast l0') d'

end Eclib.Desc2
