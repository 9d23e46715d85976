import Verif.Legendre.Desc2Min

/-!
# `process_d3` and the loops of `desc2`
-/

namespace Eclib.Desc2

open Legendre (CSol CParam solveConic solveConicParam solveConic_spec solveConicParam_spec)
open Marith (XGcd SqrRootMod isqrt)
open Forms (Q G SU)
open Forms.Spec (quad quart act)
open Spec (IsPrimeDivisorList)
open Sqf (makenum sqfmul)
open Local (globalHilbert globalHilbertQ localHilbert)

/-- a non-trivial point of the homogeneous space `y² = d1 x⁴ + c x² z² + d2 z⁴` in lowest terms -/
structure HPoint (c d1 d2 x y z : ℤ) : Prop where
  eqn : y ^ 2 = d1 * x ^ 4 + c * x ^ 2 * z ^ 2 + d2 * z ^ 4
  cop : IsCoprime x z

/-- the hypotheses on the homogeneous space and its parametrization -/
structure Par (c d1 d2 : ℤ) (q1 q2 q3 : Q) : Prop where
  h1 : d1 ≠ 0
  h2 : d2 ≠ 0
  hD : c ^ 2 - 4 * d1 * d2 ≠ 0
  par : CParam d1 c d2 1 q1 q2 q3
  a1 : q1.a ≠ 0
  a3 : q3.a ≠ 0
  sq1 : ¬ IsSquare d1

theorem Par.disc1 {c d1 d2 : ℤ} {q1 q2 q3 : Q} (h : Par c d1 d2 q1 q2 q3) : q1.b ^ 2 - 4 * q1.a * q1.c = 4 * d2 := by
  have := h.par.dx
  simp only [Q.disc] at this
  linear_combination this

theorem Par.disc3 {c d1 d2 : ℤ} {q1 q2 q3 : Q} (h : Par c d1 d2 q1 q2 q3) : q3.b ^ 2 - 4 * q3.a * q3.c = 4 * d1 := by
  have := h.par.dz
  simp only [Q.disc] at this
  linear_combination this

/-- if neither `d1` nor `d2` is a square, the leading coefficients are not zero -/
theorem Par.of {c d1 d2 : ℤ} {q1 q2 q3 : Q} (h1 : ¬ IsSquare d1) (h2 : ¬ IsSquare d2) (hD : c ^ 2 - 4 * d1 * d2 ≠ 0)
    (hp : CParam d1 c d2 1 q1 q2 q3) : Par c d1 d2 q1 q2 q3 := by
  have hl := hp.lead.eqn
  have hn := hp.lead.ne
  refine ⟨fun h => h1 (h ▸ IsSquare.zero), fun h => h2 (h ▸ IsSquare.zero), hD, hp, fun h => ?_, fun h => ?_, h1⟩
  · rw [h] at hl hn
    have e : q3.a ^ 2 * d2 = q2.a ^ 2 := by linear_combination hl
    by_cases h3 : q3.a = 0
    · rw [h3] at e hn
      exact hn ⟨rfl, pow_eq_zero_iff two_ne_zero |>.mp (by linear_combination -e), rfl⟩
    · obtain ⟨r, hr⟩ := sq_of_mul_sq h3 e
      exact h2 ⟨r, by rw [hr, sq]⟩
  · rw [h] at hl hn
    have e : q1.a ^ 2 * d1 = q2.a ^ 2 := by linear_combination hl
    by_cases h3 : q1.a = 0
    · rw [h3] at e hn
      exact hn ⟨rfl, pow_eq_zero_iff two_ne_zero |>.mp (by linear_combination -e), rfl⟩
    · obtain ⟨r, hr⟩ := sq_of_mul_sq h3 e
      exact h1 ⟨r, by rw [hr, sq]⟩

/-- a list of different positive primes -/
structure PList (fb : List ℤ) : Prop where
  pr : ∀ p ∈ fb, 0 < p ∧ Prime p
  sorted : fb.Pairwise (· < ·)

theorem PList.nodup {fb : List ℤ} (h : PList fb) : fb.Nodup := h.sorted.imp ne_of_lt

/-- the primes dividing `n` are in the list -/
def Supp (fb : List ℤ) (n : ℤ) : Prop := ∀ p, 0 < p → Prime p → p ∣ n → p ∈ fb

theorem Supp.mul {fb : List ℤ} {m n : ℤ} (hm : Supp fb m) (hn : Supp fb n) : Supp fb (m * n) := fun p h0 hp hd =>
  (hp.dvd_or_dvd hd).elim (hm p h0 hp) (hn p h0 hp)

theorem Supp.four {fb : List ℤ} (h : (2 : ℤ) ∈ fb) : Supp fb 4 := fun p h0 hp hd => by
  have h1 : p ∣ 2 := by
    rw [show (4 : ℤ) = 2 * 2 by norm_num] at hd
    exact (hp.dvd_or_dvd hd).elim id id
  have h2 : p = 2 := by
    rcases (Int.associated_iff.mp (hp.associated_of_dvd Int.prime_two h1)) with h | h <;> omega
  rw [h2]; exact h

/-- `process_d3`: it never fails, a point is a point of the original quartic, and the answer -1 means that there is no
point of class `d3`, not even at all places. -/
theorem processD3_spec (X : XGcd) (S : SqrRootMod) {L : DLib} (hL : L.Ok) {c d1 d2 : ℤ} {q1 q2 q3 : Q}
    (h : Par c d1 d2 q1 q2 q3) {plist fb : List ℤ} (hpl : PList plist) (hfb : PList fb)
    (fp : ∀ p ∈ plist, p ∈ fb) (s2 : (2 : ℤ) ∈ plist) (sd1 : Supp plist d1) (sd2 : Supp plist d2)
    (sD : Supp plist (c ^ 2 - 4 * d1 * d2)) (fa1 : Supp fb q1.a) (fa3 : Supp fb q3.a) (so : Bool) {d3 : ℤ}
    (h3 : Squarefree d3) (s3 : Supp plist d3) :
    processD3 X S L plist fb ⟨d1, c, d2⟩ q1 q3 so d3 ≠ .problem ∧
    (processD3 X S L plist fb ⟨d1, c, d2⟩ q1 q3 so d3 = .notEls → ¬ LocClass q1 q3 d3) ∧
    ∀ x y z, processD3 X S L plist fb ⟨d1, c, d2⟩ q1 q3 so d3 = .point x y z → HPoint c d1 d2 x y z := by
  have f2 := fp _ s2
  have fd1 : Supp fb d1 := fun p h0 hp hd => fp p (sd1 p h0 hp hd)
  have fd2 : Supp fb d2 := fun p h0 hp hd => fp p (sd2 p h0 hp hd)
  have f3 : Supp fb d3 := fun p h0 hp hd => fp p (s3 p h0 hp hd)
  unfold processD3
  have hq1 : q1.b ^ 2 - 4 * q1.a * q1.c ≠ 0 := by
    rw [h.disc1]; exact mul_ne_zero (by norm_num) h.h2
  have hq3 : q3.b ^ 2 - 4 * q3.a * q3.c ≠ 0 := by
    rw [h.disc3]; exact mul_ne_zero (by norm_num) h.h1
  have f4 := Supp.four f2
  rcases solveConicParam_spec X S h.a1 h3 hq1 hfb.pr hfb.nodup
    (by rw [h.disc1]; exact ((f4.mul fd2).mul fa1).mul f3) with ⟨Q1, Q2, Q3, e1, H⟩ | ⟨e1, H⟩
  swap
  · rw [e1]
    refine ⟨by simp, fun _ => ?_, by simp⟩
    exact fun hc => H (conic_hasse h.a1 h3.ne_zero hq1 hc.conic1)
  rw [e1]
  simp only
  rcases solveConic_spec X S h.a3 h3.ne_zero hq3 hfb.pr hfb.nodup
    (by rw [h.disc3]; exact ((f4.mul fd1).mul fa3).mul f3) with ⟨x3, y3, z3, e3, -⟩ | ⟨e3, H3⟩
  swap
  · rw [e3]
    refine ⟨by simp, fun _ => ?_, by simp⟩
    exact fun hc => H3 (conic_hasse h.a3 h3.ne_zero hq3 hc.conic3)
  rw [e3]
  simp only
  have hdisc : (quarticOf q3 Q1 Q3 d3).disc ≠ 0 := by
    rw [(quarticOf_disc h.par H).2.2]
    exact mul_ne_zero (mul_ne_zero (mul_ne_zero (by norm_num) (pow_ne_zero 12 h3.ne_zero))
      (pow_ne_zero 2 (mul_ne_zero h.h1 h.h2))) h.hD
  obtain ⟨k, hk, hs, hsd⟩ := simplifyG_spec L.pdivs (fun n hn => (hL.pdivs n hn).1) _ hdisc
  have hbp := badPrimes_prime (fun n hn => (hL.pdivs n hn).1) hpl.pr (simplifyG L.pdivs (quarticOf q3 Q1 Q3 d3))
  have two : Supp plist 2 := fun p h0 hp hd => by
    have : p = 2 := by
      have h1 := Int.le_of_dvd two_pos hd
      have h2 : p ≠ 1 := fun h => hp.not_isUnit (h ▸ isUnit_one)
      omega
    rw [this]; exact s2
  obtain ⟨T0, T1⟩ := minim_ok X (plist := plist) hbp (fun p h0 hp hn => ⟨fun h => hn (two p h0 hp h),
    fun h => hn (sd1 p h0 hp h), fun h => hn (sd2 p h0 hp h), fun h => hn (s3 p h0 hp h), fun h => hn (sD p h0 hp h)⟩)
    (quarticOf_disc h.par H).2.2 hs hsd _ rfl
  generalize Forms.minimAllP X false (badPrimes L.pdivs plist (simplifyG L.pdivs (quarticOf q3 Q1 Q3 d3)))
    (simplifyG L.pdivs (quarticOf q3 Q1 Q3 d3)) SU.one (simplifyG L.pdivs (quarticOf q3 Q1 Q3 d3)).II
    (simplifyG L.pdivs (quarticOf q3 Q1 Q3 d3)).JJ = r at *
  obtain ⟨els, bp, e4, hels1, hels2⟩ := LocSol.locallysoluble_bound L.ss r.1 plist 0 (T0.disc hsd)
    (fun p hp => ⟨(hpl.pr p hp).1.le, (hpl.pr p hp).2⟩)
    (fun p hp h => hL.ss r.1 p (T0.disc hsd) h (hpl.pr p hp).2) _ le_rfl
  rw [e4]
  simp only
  split_ifs with c1 c2
  · refine ⟨by simp, fun _ => ?_, by simp⟩
    intro hc
    refine (hels2 (by simpa using c1)).2 ?_
    have hE : Ev (KPoint r.1) := Ev.imp (fun K _ _ hK => KPoint.of_tr T0.u T0.det T0.eqn
      (KPoint.of_smul hk hs (point_quarticOf H h3.ne_zero hq1 hK))) hc
    exact ⟨fun _ => hE.1, fun p hp _ => hE.2 p hp⟩
  · exact ⟨by simp, by simp, by simp⟩
  · have T1 := T1 (hels1.mp (by simpa using c1)).2 _ rfl
    have hroot : NoRoot (simplifyG L.pdivs (quarticOf q3 Q1 Q3 d3)) := by
      intro x z hne h0
      refine noRoot_quarticOf H h3.ne_zero hq1 h.disc3 h.sq1 h.a3 x z hne ?_
      rw [← hs, h0, mul_zero]
    generalize Forms.minimAllP X true (badPrimes L.pdivs plist (simplifyG L.pdivs (quarticOf q3 Q1 Q3 d3))) r.1 r.2.1
      r.2.2.1 r.2.2.2.1 = t at *
    obtain ⟨w, ew, T2⟩ := reduceLoop_ok hL.redQ hsd hroot 5 true t.1 t.2.1 T1
    rw [ew]
    simp only
    cases hse : L.search w.1 with
    | none => exact ⟨by simp, by simp, by simp⟩
    | some p =>
      obtain ⟨x, y, z⟩ := p
      have hp := T2.point (hL.search _ _ _ _ hse)
      have hw : (quarticOf q3 Q1 Q3 d3).fn (w.2.m11 * x + w.2.m12 * z) (w.2.m21 * x + w.2.m22 * z) =
          (k * (w.2.m00 * y)) ^ 2 := by
        rw [← hs, mul_pow, hp.1]; rfl
      obtain ⟨a, b, e, he, h1, h2, -⟩ := mapBack_spec h.par H h.h2 h.hD h3.ne_zero hp.2 hw
      simp only
      rw [he]
      refine ⟨by simp, by simp, ?_⟩
      intro x y z hxyz
      simp only [D3.point.injEq] at hxyz
      obtain ⟨rfl, rfl, rfl⟩ := hxyz
      exact ⟨h1, h2⟩

/-! ## the class of a point -/

theorem exists_squarefree {n : ℤ} (hn : n ≠ 0) : ∃ s t : ℤ, n = s * t ^ 2 ∧ Squarefree s ∧ t ≠ 0 := by
  obtain ⟨a, b, hab, ha⟩ := Nat.sq_mul_squarefree n.natAbs
  have hb0 : b ≠ 0 := by
    rintro rfl
    simp at hab
    exact hn (by omega)
  refine ⟨n.sign * a, b, ?_, ?_, by exact_mod_cast hb0⟩
  · conv_lhs => rw [← Int.sign_mul_natAbs n, ← hab]
    push_cast; ring
  · rcases hn.lt_or_gt with h | h
    · rw [Int.sign_eq_neg_one_of_neg h, neg_one_mul]
      exact fun x hx => Int.squarefree_natCast.mpr ha x ((dvd_neg).mp hx)
    · rw [Int.sign_eq_one_of_pos h, one_mul]
      exact Int.squarefree_natCast.mpr ha

/-- every point belongs to a square-free divisor of `c² - 4 d1 d2` -/
theorem exists_class {c d1 d2 : ℤ} {q1 q2 q3 : Q} (h : Par c d1 d2 q1 q2 q3) {x y z : ℤ} (hp : HPoint c d1 d2 x y z) :
    ∃ d3, Squarefree d3 ∧ d3 ∣ c ^ 2 - 4 * d1 * d2 ∧ HasClass q1 q3 d3 := by
  obtain ⟨s, t, hco, hsurj⟩ := CParam.surj h.par (x := x ^ 2) (y := y) (z := z ^ 2) (by linear_combination -hp.eqn)
  have hst : ¬ (s = 0 ∧ t = 0) := by
    rintro ⟨rfl, rfl⟩
    exact not_isCoprime_zero_zero hco
  have hne := CParam.ne_zero h.par one_ne_zero h.hD hst
  have hdv := fun k => CParam.dvd_res (k := k) h.par hco
  obtain ⟨k, hk1, hk3⟩ : ∃ k, quad q1.a q1.b q1.c s t = k * x ^ 2 ∧ quad q3.a q3.b q3.c s t = k * z ^ 2 := by
    obtain ⟨i, j, hij⟩ := hp.cop.pow (m := 2) (n := 2)
    refine ⟨quad q1.a q1.b q1.c s t * i + quad q3.a q3.b q3.c s t * j, ?_, ?_⟩
    · linear_combination -quad q1.a q1.b q1.c s t * hij + j * hsurj
    · linear_combination -quad q3.a q3.b q3.c s t * hij - i * hsurj
  have hk0 : k ≠ 0 := by
    rintro rfl
    exact hne ⟨by rw [hk1, zero_mul], by rw [hk3, zero_mul]⟩
  obtain ⟨d3, m, hm, hsf, -⟩ := exists_squarefree hk0
  refine ⟨d3, hsf, ?_, s, t, m * x, m * z, hst, ?_, ?_⟩
  · have := hdv k ⟨_, hk1⟩ ⟨_, hk3⟩
    rw [one_pow, one_mul] at this
    exact (Dvd.intro _ hm.symm).trans this
  · rw [hk1, hm]; ring
  · rw [hk3, hm]; ring

/-! ## Hilbert symbols -/

theorem local_ok {a b : ℤ} (ha : a ≠ 0) (hb : b ≠ 0) {p : ℤ} (hp : p = 0 ∨ (0 < p ∧ Prime p)) :
    ∃ h, localHilbert a b p = some h ∧
      (h ≠ 0 → ¬ Local.Everywhere a b) := by
  rcases hp with rfl | ⟨h0, hp⟩
  · obtain ⟨h, h1, -, h3⟩ := Local.C45_real ha hb (le_refl 0)
    exact ⟨h, h1, fun hne hE => hne (h3.mpr hE.1)⟩
  · obtain ⟨q, rfl⟩ : ∃ q : ℕ, (q : ℤ) = p := ⟨p.toNat, Int.toNat_of_nonneg h0.le⟩
    have : Fact q.Prime := ⟨Nat.prime_iff_prime_int.mpr hp⟩
    obtain ⟨h, h1, -, h3⟩ := Local.C45_local (p := q) ha hb
    exact ⟨h, h1, fun hne hE => hne (h3.mpr (hE.2 q this.out))⟩

theorem anyBad_ok {a b : ℤ} (ha : a ≠ 0) (hb : b ≠ 0) (pl : List ℤ) (hpl : ∀ p ∈ pl, 0 < p ∧ Prime p) (badp : ℤ) :
    ∃ h, Local.anyBad a b pl badp = some h ∧
      (h.1 ≠ 0 → ¬ Local.Everywhere a b) := by
  induction pl generalizing badp with
  | nil => exact ⟨_, rfl, fun h => absurd rfl h⟩
  | cons p ps ih =>
    obtain ⟨h, e, h2⟩ := local_ok ha hb (Or.inr (hpl p List.mem_cons_self))
    unfold Local.anyBad
    rw [e]
    by_cases h0 : h = 0
    · subst h0
      exact ih (fun q hq => hpl q (List.mem_cons_of_mem _ hq)) p
    · simp only
      exact ⟨(1, p), by simp, fun _ => h2 h0⟩

theorem globalHilbert_ok {a b : ℤ} (ha : a ≠ 0) (hb : b ≠ 0) (pl : List ℤ) (hpl : ∀ p ∈ pl, 0 < p ∧ Prime p) (badp : ℤ) :
    ∃ h, globalHilbert a b pl badp = some h ∧
      (h.1 ≠ 0 → ¬ Local.Everywhere a b) := by
  obtain ⟨h, e, h2⟩ := local_ok ha hb (Or.inl rfl)
  unfold globalHilbert
  rw [e]
  by_cases h0 : h = 0
  · subst h0
    exact anyBad_ok ha hb pl hpl badp
  · exact ⟨(1, 0), by simp, fun _ => h2 h0⟩

theorem globalHilbertQ_ok {q : Q} {d : ℤ} (ha : q.a ≠ 0) (hd : d ≠ 0) (hD : q.b ^ 2 - 4 * q.a * q.c ≠ 0) (pl : List ℤ)
    (hpl : ∀ p ∈ pl, 0 < p ∧ Prime p) :
    ∃ h, globalHilbertQ q.a q.b q.c d pl 0 = some h ∧
      (h.1 ≠ 0 → ¬ Ev (KConic q d)) := by
  obtain ⟨h, e, h2⟩ := globalHilbert_ok (mul_ne_zero ha hd) (b := q.b * q.b - 4 * q.a * q.c) (by rwa [← sq]) pl hpl 0
  exact ⟨h, e, fun hne hE => h2 hne (conic_everywhere ha hE)⟩

/-- every number of the support is a number not in the mask times generators of `B'`, modulo squares -/
def Covered (supp bgens : List ℤ) (mask : ℕ) : Prop := ∀ i < 2 ^ supp.length, ∀ m, makenum supp i = some m →
  ∃ i0 < 2 ^ supp.length, i0 &&& mask = 0 ∧ ∃ m0, makenum supp i0 = some m0 ∧ ∃ l : List ℤ, (∀ g ∈ l, g ∈ bgens) ∧
    IsSquare (m * l.prod * m0)

/-! ## vector_union -/

theorem sorted_setUnion (a b : List ℤ) (ha : a.Pairwise (· < ·)) (hb : b.Pairwise (· < ·)) :
    (setUnion a b).Pairwise (· < ·) := by
  fun_induction setUnion a b with
  | case1 b => exact hb
  | case2 a => exact ha
  | case3 y a z b h ih =>
    rw [List.pairwise_cons] at ha ⊢
    refine ⟨fun x hx => ?_, ih ha.2 hb⟩
    rcases (mem_setUnion _ _ _).mp hx with hx | hx
    · exact ha.1 x hx
    · rcases List.mem_cons.mp hx with rfl | hx
      · exact h
      · exact h.trans ((List.pairwise_cons.mp hb).1 x hx)
  | case4 y a z b h1 h2 ih =>
    rw [List.pairwise_cons] at hb ⊢
    refine ⟨fun x hx => ?_, ih ha hb.2⟩
    rcases (mem_setUnion _ _ _).mp hx with hx | hx
    · rcases List.mem_cons.mp hx with rfl | hx
      · exact h2
      · exact h2.trans ((List.pairwise_cons.mp ha).1 x hx)
    · exact hb.1 x hx
  | case5 y a z b h1 h2 ih =>
    have : y = z := by omega
    subst this
    rw [List.pairwise_cons] at ha hb ⊢
    refine ⟨fun x hx => ?_, ih ha.2 hb.2⟩
    rcases (mem_setUnion _ _ _).mp hx with hx | hx
    · exact ha.1 x hx
    · exact hb.1 x hx

end Eclib.Desc2
