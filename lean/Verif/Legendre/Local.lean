import Verif.Legendre.ConicModel
import Verif.Legendre.Solve

/-!
# `testlocsol` decides solubility
-/

namespace Eclib.Legendre

open Marith (XGcd SqrRootMod legendre)
open Marith.Props (xgcd0 sqr0)
open Spec (IsPrimeDivisorList)

theorem locTest_iff (l : List ℤ) (m : ℤ) : locTest l m = true ↔ ∀ p ∈ l, 2 < p → legendre m p = some 1 := by
  unfold locTest
  rw [Bool.not_eq_true', ← Bool.not_eq_true, List.any_eq_true]
  constructor
  · intro h p hp h2
    by_contra h3
    exact h ⟨p, hp, by simp [h2, h3]⟩
  · rintro h ⟨p, hp, h1⟩
    rw [Bool.and_eq_true] at h1
    exact of_decide_eq_true h1.2 (h p hp (of_decide_eq_true h1.1))

theorem nat_of_prime {p : ℤ} (h0 : 0 < p) (hp : Prime p) : ∃ q : ℕ, p = q ∧ q.Prime := by
  refine ⟨p.natAbs, by omega, Int.prime_iff_natAbs_prime.mp hp⟩

/-- the test for the primes dividing `a` -/
theorem locTest_spec {a m : ℤ} {l : List ℤ} (ha : Squarefree a) (hl : IsPrimeDivisorList a l) (hco : IsCoprime m a) :
    locTest l m = true ↔ ∃ n, a ∣ n ^ 2 - m := by
  rw [locTest_iff]
  constructor
  · intro h
    have hpr : ∀ p ∈ l, 0 < p ∧ Prime p ∧ (p ∣ |a| → ¬ p ∣ m) := fun p hp =>
      ⟨((hl.mem p).mp hp).1, ((hl.mem p).mp hp).2.1, fun h1 h2 =>
        not_both hco ((hl.mem p).mp hp).2.1 h2 ((dvd_abs _ _).mp h1)⟩
    cases hs : Marith.sqrtModM xgcd0 sqr0 m |a| l with
    | some x =>
      have := Marith.Props.C13_sqrt_mod_m xgcd0 sqr0 m |a| l (abs_ne_zero.mpr ha.ne_zero) (pd_abs hl) x hs
      rw [Spec.Cong, abs_dvd] at this
      exact ⟨x, this⟩
    | none =>
      exfalso
      unfold Marith.sqrtModM at hs
      split_ifs at hs with h1 h2 h3
      obtain ⟨p, hp, hz⟩ := Marith.sqrtMLoop_complete xgcd0 sqr0 m |a| (l.headD 0) l 0 1 hpr hs
      apply hz
      obtain ⟨h0, hpp, hd⟩ := (hl.mem p).mp hp
      obtain ⟨q, rfl, hq⟩ := nat_of_prime h0 hpp
      have hval : Marith.val q |a| ≤ 1 := by
        by_contra hc
        have h5 := (Marith.val_spec q |a| (by rw [abs_of_pos h0]; exact_mod_cast hq.two_le)
          (abs_ne_zero.mpr ha.ne_zero)).1
        have h6 : (q : ℤ) * q ∣ a := by
          rw [← sq, ← dvd_abs]
          exact (pow_dvd_pow _ (by omega)).trans h5
        exact hpp.not_isUnit (ha _ h6)
      have hdv : (q : ℤ) ^ Marith.val q |a| ∣ q := by
        have := pow_dvd_pow (q : ℤ) hval
        rwa [pow_one] at this
      by_cases h2 : q = 2
      · subst h2
        refine ⟨m, hdv.trans ?_⟩
        have := Int.even_mul_pred_self m
        rw [show m ^ 2 - m = m * (m - 1) by ring]
        exact_mod_cast this.two_dvd
      · have h3 : 2 < (q : ℤ) := by have := hq.two_le; omega
        have h4 := h q hp h3
        have h5 := Marith.isSquare_of_legendre hq h2 (a := m) (fun h => not_both hco hpp h hd) (by rw [h4]; decide)
        obtain ⟨w, hw⟩ := h5
        have : Fact q.Prime := ⟨hq⟩
        refine ⟨(w.val : ℤ), hdv.trans ?_⟩
        rw [← ZMod.intCast_zmod_eq_zero_iff_dvd _ q]
        push_cast
        rw [ZMod.natCast_zmod_val, hw]
        ring
  · rintro ⟨n, hn⟩ p hp h2
    obtain ⟨h0, hpp, hd⟩ := (hl.mem p).mp hp
    obtain ⟨q, rfl, hq⟩ := nat_of_prime h0 hpp
    have hq2 : q ≠ 2 := by rintro rfl; norm_num at h2
    have : Fact q.Prime := ⟨hq⟩
    rw [Marith.legendre_eq m q (hq.odd_of_ne_two hq2), ← jacobiSym.legendreSym.to_jacobiSym]
    have hm0 : (m : ZMod q) ≠ 0 := by
      intro h
      exact not_both hco hpp ((ZMod.intCast_zmod_eq_zero_iff_dvd m q).mp h) hd
    rw [(legendreSym.eq_one_iff q hm0).mpr]
    refine ⟨(n : ZMod q), ?_⟩
    have := (ZMod.intCast_zmod_eq_zero_iff_dvd _ q).mpr (hd.trans hn)
    push_cast at this
    linear_combination -this

theorem Sol.not_same {a b c x y z : ℤ} (h : Sol a b c x y z) :
    ¬ (0 < a ∧ 0 < b ∧ 0 < c) ∧ ¬ (a < 0 ∧ b < 0 ∧ c < 0) := by
  have hsum := h.eqn
  have hz : ∀ w : ℤ, w ^ 2 ≤ 0 → w = 0 := fun w hw => pow_eq_zero_iff two_ne_zero |>.mp (le_antisymm hw (sq_nonneg w))
  constructor
  · rintro ⟨p1, p2, p3⟩
    have q1 := mul_nonneg p1.le (sq_nonneg x)
    have q2 := mul_nonneg p2.le (sq_nonneg y)
    have q3 := mul_nonneg p3.le (sq_nonneg z)
    exact h.ne ⟨hz _ (by nlinarith), hz _ (by nlinarith), hz _ (by nlinarith)⟩
  · rintro ⟨p1, p2, p3⟩
    have q1 := mul_nonpos_of_nonpos_of_nonneg p1.le (sq_nonneg x)
    have q2 := mul_nonpos_of_nonpos_of_nonneg p2.le (sq_nonneg y)
    have q3 := mul_nonpos_of_nonpos_of_nonneg p3.le (sq_nonneg z)
    exact h.ne ⟨hz _ (by nlinarith), hz _ (by nlinarith), hz _ (by nlinarith)⟩

theorem sign_same {a b c : ℤ} (ha : a ≠ 0) (hb : b ≠ 0) (hc : c ≠ 0) :
    (a.sign = b.sign ∧ b.sign = c.sign) ↔ ((0 < a ∧ 0 < b ∧ 0 < c) ∨ (a < 0 ∧ b < 0 ∧ c < 0)) := by
  rcases lt_or_gt_of_ne ha with pa | pa <;> rcases lt_or_gt_of_ne hb with pb | pb <;>
    rcases lt_or_gt_of_ne hc with pc | pc <;>
    simp [Int.sign_eq_neg_one_of_neg, Int.sign_eq_one_of_pos, *, pa.le, pb.le, pc.le, not_lt.mpr]

/-- `testlocsol(a,alist,b,blist,c,clist)` -/
theorem testlocsol3_spec {a b c : ℤ} {la lb lc : List ℤ} (hC : Coef a b c) (sa : Squarefree a) (sb : Squarefree b)
    (sc : Squarefree c) (ha : IsPrimeDivisorList a la) (hb : IsPrimeDivisorList b lb) (hc : IsPrimeDivisorList c lc) :
    testlocsol3 a la b lb c lc = true ↔ ∃ x y z, Sol a b c x y z := by
  have ca : IsCoprime (-b * c) a := (IsCoprime.neg_left hC.cab.symm).mul_left hC.cca
  have cb : IsCoprime (-a * c) b := (IsCoprime.neg_left hC.cab).mul_left hC.cbc.symm
  have cc : IsCoprime (-a * b) c := (IsCoprime.neg_left hC.cca.symm).mul_left hC.cbc
  unfold testlocsol3
  rw [if_congr (sign_same hC.a0 hC.b0 hC.c0) rfl rfl]
  by_cases hs : (0 < a ∧ 0 < b ∧ 0 < c) ∨ (a < 0 ∧ b < 0 ∧ c < 0)
  · rw [if_pos hs]
    constructor
    · intro h; simp at h
    · rintro ⟨x, y, z, h⟩
      have := h.not_same
      tauto
  · rw [if_neg hs, Bool.and_eq_true, Bool.and_eq_true, locTest_spec sc hc cc, locTest_spec sa ha ca, locTest_spec sb hb cb]
    push Not at hs
    constructor
    · rintro ⟨⟨⟨q, hq⟩, n, hn⟩, p, hp⟩
      refine C90_soluble a b c n p q ⟨hC.a0, hC.b0, hC.c0, hC.cab, hC.cbc, hC.cca, ?_, ?_, ?_, ?_, ?_⟩ sa sb sc
      · rintro ⟨h1, h2, h3⟩
        have := hs.1 h1 h2
        omega
      · rintro ⟨h1, h2, h3⟩
        have := hs.2 h1 h2
        omega
      · obtain ⟨t, ht⟩ := hn; exact ⟨t, by linear_combination ht⟩
      · obtain ⟨t, ht⟩ := hp; exact ⟨t, by linear_combination ht⟩
      · obtain ⟨t, ht⟩ := hq; exact ⟨t, by linear_combination ht⟩
    · rintro ⟨x0, y0, z0, hS0⟩
      obtain ⟨hS, hP, -⟩ := hS0.cancel1
      obtain ⟨n, hn⟩ := cert_necessary hC sa hS hP
      obtain ⟨p, hp⟩ := cert_necessary hC.cyc sb (Sol.cyc (Sol.cyc hS)) (Prim.cyc (Prim.cyc hP))
      obtain ⟨q, hq⟩ := cert_necessary hC.cyc.cyc sc (Sol.cyc hS) (Prim.cyc hP)
      refine ⟨⟨⟨q, ?_⟩, n, ?_⟩, p, ?_⟩
      · obtain ⟨t, ht⟩ := hq; exact ⟨t, by linear_combination ht⟩
      · obtain ⟨t, ht⟩ := hn; exact ⟨t, by linear_combination ht⟩
      · obtain ⟨t, ht⟩ := hp; exact ⟨t, by linear_combination ht⟩

/-! ### two coefficients -/

/-- a square-free number is the product of its primes -/
theorem prod_primes {a : ℤ} {l : List ℤ} (ha : Squarefree a) (hl : IsPrimeDivisorList a l) : l.prod = |a| := by
  have hpr : ∀ p ∈ l, 0 < p ∧ Prime p := fun p hp => ⟨((hl.mem p).mp hp).1, ((hl.mem p).mp hp).2.1⟩
  rw [← Marith.divProd_val_eq ha.ne_zero hpr hl.nodup fun p h0 h1 h2 => (hl.mem p).mpr ⟨h0, h1, h2⟩]
  unfold Arith.divProd
  congr 1
  rw [List.map_congr_left (g := id)]
  · simp
  · intro p hp
    obtain ⟨h0, hpp, hd⟩ := (hl.mem p).mp hp
    obtain ⟨q, rfl, hq⟩ := nat_of_prime h0 hpp
    have hv := Marith.val_spec q a (by rw [abs_of_pos h0]; exact_mod_cast hq.two_le) ha.ne_zero
    have : Marith.val q a = 1 := by
      have h1 : ¬ 2 ≤ Marith.val q a := fun h2 => hpp.not_isUnit (ha _ (by rw [← sq]; exact (pow_dvd_pow _ h2).trans hv.1))
      have h2 : Marith.val q a ≠ 0 := by
        intro h2
        apply hv.2
        rw [h2]
        simpa using hd
      omega
    show (q : ℤ) ^ Marith.val q a = q
    rw [this, pow_one]

theorem locLoop1_spec (b : ℤ) : ∀ (l : List ℤ) (a0 c : ℤ) (al cl : List ℤ),
    locLoop1 b l a0 c al cl = (a0 * (l.filter fun p => ¬ p ∣ b).prod, c * (l.filter fun p => p ∣ b).prod,
      al ++ l.filter (fun p => ¬ p ∣ b), cl ++ l.filter fun p => p ∣ b) := by
  intro l
  induction l with
  | nil => intro a0 c al cl; simp [locLoop1]
  | cons p l ih =>
    intro a0 c al cl
    rw [locLoop1]
    by_cases h : p ∣ b
    · rw [if_pos ((Marith.div_eq p b).mpr h), ih]
      simp [h, mul_assoc]
    · rw [if_neg (fun h1 => h ((Marith.div_eq p b).mp h1)), ih]
      simp [h, mul_assoc]

theorem locLoop2_spec (c : ℤ) : ∀ (l : List ℤ) (b0 : ℤ) (bl : List ℤ),
    locLoop2 c l b0 bl = (b0 * (l.filter fun p => ¬ p ∣ c).prod, bl ++ l.filter fun p => ¬ p ∣ c) := by
  intro l
  induction l with
  | nil => intro b0 bl; simp [locLoop2]
  | cons p l ih =>
    intro b0 bl
    rw [locLoop2]
    by_cases h : p ∣ c
    · rw [if_pos ((Marith.div_eq p c).mpr h), ih]
      simp [h]
    · rw [if_neg (fun h1 => h ((Marith.div_eq p c).mp h1)), ih]
      simp [h, mul_assoc]

theorem prod_filter_mul (l : List ℤ) (P : ℤ → Prop) [DecidablePred P] :
    (l.filter fun p => ¬ P p).prod * (l.filter fun p => P p).prod = l.prod := by
  induction l with
  | nil => simp
  | cons p l ih =>
    by_cases h : P p
    · simp only [h, not_true_eq_false, decide_false, decide_true, List.filter_cons, if_true, List.prod_cons]
      rw [← ih]; simp only [Bool.false_eq_true, if_false]; ring
    · simp only [h, not_false_eq_true, decide_false, decide_true, List.filter_cons, if_true, List.prod_cons]
      rw [← ih]; simp only [Bool.false_eq_true, if_false]; ring

/-- a prime dividing a product of positive primes is one of them -/
theorem mem_of_dvd_prod {l : List ℤ} (hl : ∀ p ∈ l, 0 < p ∧ Prime p) {p : ℤ} (h0 : 0 < p) (hp : Prime p) :
    p ∣ l.prod ↔ p ∈ l := by
  constructor
  · intro h
    obtain ⟨q, hq, hd⟩ := (Prime.dvd_prod_iff hp).mp h
    have ha := (hp.associated_of_dvd (hl q hq).2 hd)
    rw [Int.associated_iff] at ha
    have := (hl q hq).1
    rcases ha with ha | ha
    · rwa [ha]
    · omega
  · exact List.dvd_prod

/-- `testlocsol(a,alist,b,blist)` decides whether `a x² + b y² = z²` has a non-trivial solution -/
theorem testlocsol2_spec {a b : ℤ} {la lb : List ℤ} (sa : Squarefree a) (sb : Squarefree b)
    (ha : IsPrimeDivisorList a la) (hb : IsPrimeDivisorList b lb) :
    testlocsol2 a la b lb = true ↔ ∃ x y z : ℤ, a * x ^ 2 + b * y ^ 2 = z ^ 2 ∧ ¬ (x = 0 ∧ y = 0 ∧ z = 0) := by
  unfold testlocsol2
  by_cases hs : a < 0 ∧ b < 0
  · rw [if_pos hs]
    constructor
    · intro h; simp at h
    · rintro ⟨x, y, z, h1, h2⟩
      exact ((Sol.not_same (a := a) (b := b) (c := -1) ⟨by linear_combination h1, h2⟩).2 ⟨hs.1, hs.2, by norm_num⟩).elim
  rw [if_neg hs]
  simp only [locLoop1_spec, locLoop2_spec, List.nil_append]
  obtain ⟨C1, hC1⟩ : ∃ C1, C1 = (la.filter fun p => p ∣ b) := ⟨_, rfl⟩
  obtain ⟨A1, hA1⟩ : ∃ A1, A1 = (la.filter fun p => ¬ p ∣ b) := ⟨_, rfl⟩
  rw [← hC1, ← hA1]
  have hpa : ∀ p ∈ la, 0 < p ∧ Prime p := fun p hp => ⟨((ha.mem p).mp hp).1, ((ha.mem p).mp hp).2.1⟩
  have hpb : ∀ p ∈ lb, 0 < p ∧ Prime p := fun p hp => ⟨((hb.mem p).mp hp).1, ((hb.mem p).mp hp).2.1⟩
  have hpC : ∀ p ∈ C1, 0 < p ∧ Prime p := fun p hp => hpa p (List.mem_of_mem_filter (hC1 ▸ hp))
  have hpA : ∀ p ∈ A1, 0 < p ∧ Prime p := fun p hp => hpa p (List.mem_of_mem_filter (hA1 ▸ hp))
  obtain ⟨c, hc⟩ : ∃ c, c = C1.prod := ⟨_, rfl⟩
  have hdc : ∀ p, p ∣ -1 * C1.prod ↔ p ∣ c := fun p => by rw [neg_one_mul, dvd_neg, hc]
  obtain ⟨B1, hB1⟩ : ∃ B1, B1 = (lb.filter fun p => ¬ p ∣ c) := ⟨_, rfl⟩
  have hB1' : (lb.filter fun p => ¬ p ∣ -1 * C1.prod) = B1 := by
    rw [hB1]; simp only [hdc]
  rw [hB1', ← hc]
  have hpB : ∀ p ∈ B1, 0 < p ∧ Prime p := fun p hp => hpb p (List.mem_of_mem_filter (hB1 ▸ hp))
  have pos_prod : ∀ l : List ℤ, (∀ p ∈ l, 0 < p ∧ Prime p) → 0 < l.prod := fun l h =>
    List.prod_pos (fun p hp => (h p hp).1)
  have cpos : 0 < c := hc ▸ pos_prod C1 hpC
  have apos := pos_prod A1 hpA
  have bpos := pos_prod B1 hpB
  have hmC : ∀ p, 0 < p → Prime p → (p ∣ c ↔ p ∣ a ∧ p ∣ b) := fun p h0 h1 => by
    rw [hc, mem_of_dvd_prod hpC h0 h1, hC1, List.mem_filter, ha.mem, decide_eq_true_eq]
    tauto
  have e1 : A1.prod * c = |a| := by
    rw [← prod_primes sa ha, hA1, hc, hC1]
    exact prod_filter_mul la fun p => p ∣ b
  have e2 : B1.prod * c = |b| := by
    have hperm : C1.Perm (lb.filter fun p => p ∣ c) := by
      refine (List.perm_ext_iff_of_nodup (hC1 ▸ ha.nodup.filter _) (hb.nodup.filter _)).mpr fun p => ?_
      rw [List.mem_filter, decide_eq_true_eq, hb.mem, hC1, List.mem_filter, ha.mem, decide_eq_true_eq]
      constructor
      · rintro ⟨⟨h0, h1, h2⟩, h3⟩
        exact ⟨⟨h0, h1, h3⟩, (hmC p h0 h1).mpr ⟨h2, h3⟩⟩
      · rintro ⟨⟨h0, h1, h2⟩, h3⟩
        exact ⟨⟨h0, h1, ((hmC p h0 h1).mp h3).1⟩, h2⟩
    rw [← prod_primes sb hb, hB1]
    have h5 := prod_filter_mul lb fun p => p ∣ c
    rwa [← hperm.prod_eq, ← hc] at h5
  obtain ⟨a0, ha0⟩ : ∃ a0, a0 = (if a < 0 then -1 else 1) * A1.prod := ⟨_, rfl⟩
  obtain ⟨b0, hb0⟩ : ∃ b0, b0 = (if b < 0 then -1 else 1) * B1.prod := ⟨_, rfl⟩
  rw [← ha0, ← hb0]
  have ea : a = a0 * c := by
    rw [ha0]
    split_ifs with h
    · rw [abs_of_neg h] at e1; linear_combination e1
    · rw [abs_of_nonneg (not_lt.mp h)] at e1; linear_combination -e1
  have eb : b = b0 * c := by
    rw [hb0]
    split_ifs with h
    · rw [abs_of_neg h] at e2; linear_combination e2
    · rw [abs_of_nonneg (not_lt.mp h)] at e2; linear_combination -e2
  have dA : ∀ p, p ∣ a0 ↔ p ∣ A1.prod := fun p => by
    rw [ha0]; split_ifs <;> simp
  have dB : ∀ p, p ∣ b0 ↔ p ∣ B1.prod := fun p => by
    rw [hb0]; split_ifs <;> simp
  have s1 := sa
  have s2 := sb
  rw [ea] at s1
  rw [eb] at s2
  obtain ⟨r1, sa0, sc⟩ := squarefree_mul_iff.mp s1
  obtain ⟨r2, sb0, -⟩ := squarefree_mul_iff.mp s2
  have cac : IsCoprime a0 c := isRelPrime_iff_isCoprime.mp r1
  have cbc : IsCoprime b0 c := isRelPrime_iff_isCoprime.mp r2
  have cab : IsCoprime a0 b0 := by
    refine coprime_of_prime fun p hp h1 h2 => ?_
    have h0 : 0 < |p| := abs_pos.mpr hp.ne_zero
    have hpp : Prime |p| := by rw [Int.prime_iff_natAbs_prime, Int.natAbs_abs]; exact Int.prime_iff_natAbs_prime.mp hp
    have : |p| ∣ c := (hmC _ h0 hpp).mpr ⟨by rw [ea, abs_dvd]; exact h1.mul_right _, by rw [eb, abs_dvd]; exact h2.mul_right _⟩
    exact not_both cac hpp ((abs_dvd _ _).mpr h1) this
  have sc' : Squarefree (-1 * c) := by
    rw [neg_one_mul]
    exact (Associated.neg_left (Associated.refl c)).squarefree_iff.mpr sc
  have lA : IsPrimeDivisorList a0 A1 := by
    refine ⟨hA1 ▸ ha.nodup.filter _, fun p => ⟨fun h => ⟨(hpA p h).1, (hpA p h).2, (dA p).mpr (List.dvd_prod h)⟩, ?_⟩⟩
    rintro ⟨h0, h1, h2⟩
    exact (mem_of_dvd_prod hpA h0 h1).mp ((dA p).mp h2)
  have lB : IsPrimeDivisorList b0 B1 := by
    refine ⟨hB1 ▸ hb.nodup.filter _, fun p => ⟨fun h => ⟨(hpB p h).1, (hpB p h).2, (dB p).mpr (List.dvd_prod h)⟩, ?_⟩⟩
    rintro ⟨h0, h1, h2⟩
    exact (mem_of_dvd_prod hpB h0 h1).mp ((dB p).mp h2)
  have lC : IsPrimeDivisorList (-1 * c) C1 := by
    refine ⟨hC1 ▸ ha.nodup.filter _, fun p => ⟨fun h => ⟨(hpC p h).1, (hpC p h).2, ?_⟩, ?_⟩⟩
    · rw [neg_one_mul, dvd_neg, hc]; exact List.dvd_prod h
    rintro ⟨h0, h1, h2⟩
    rw [neg_one_mul, dvd_neg, hc] at h2
    exact (mem_of_dvd_prod hpC h0 h1).mp h2
  rw [testlocsol3_spec ⟨sa0.ne_zero, sb0.ne_zero, sc'.ne_zero, cab, by rw [neg_one_mul]; exact cbc.neg_right, by
    rw [neg_one_mul]; exact cac.symm.neg_left⟩ sa0 sb0 sc' lA lB lC]
  constructor
  · rintro ⟨x, y, z, h⟩
    refine ⟨x, y, c * z, ?_, fun ⟨h1, h2, h3⟩ => h.ne ⟨h1, h2, (mul_eq_zero.mp h3).resolve_left cpos.ne'⟩⟩
    rw [ea, eb]
    linear_combination c * h.eqn
  · rintro ⟨x, y, z, h, hne⟩
    have hz : c ∣ z := by
      have : c ∣ z ^ 2 := ⟨a0 * x ^ 2 + b0 * y ^ 2, by rw [← h, ea, eb]; ring⟩
      exact sc.isRadical 2 z this
    obtain ⟨w, rfl⟩ := hz
    refine ⟨x, y, w, ?_, fun ⟨h1, h2, h3⟩ => hne ⟨h1, h2, by rw [h3, mul_zero]⟩⟩
    apply mul_left_cancel₀ cpos.ne'
    rw [ea, eb] at h
    linear_combination h

end Eclib.Legendre
