import Verif.Legendre.Lem1

/-!
# `lem3`
-/

namespace Eclib.Legendre

/-- the equations which hold at all times in `lem3` -/
structure Lem3.Inv (a b : ℤ) (s : Lem3) : Prop where
  e1 : a = s.c1 ^ 2 * s.m1 * s.m3
  e2 : b = s.c2 ^ 2 * s.m2 * s.m3
  p3 : 0 < s.m3
  p1 : 0 < s.c1
  p2 : 0 < s.c2

theorem strip_spec (p : ℤ) (hp : 1 < p) : ∀ (k : ℕ) (m c : ℤ), 0 < c →
    (strip p k m c).1 * (strip p k m c).2 ^ 2 = m * c ^ 2 ∧ 0 < (strip p k m c).2 := by
  intro k
  induction k with
  | zero => intro m c hc; exact ⟨rfl, hc⟩
  | succ k ih =>
    intro m c hc
    unfold strip
    split_ifs with h
    · obtain ⟨h1, h2⟩ := ih (m.fdiv (p ^ 2)) (c * p) (by positivity)
      refine ⟨?_, h2⟩
      rw [h1]
      have hm := Int.fmod_add_mul_fdiv m (p ^ 2)
      rw [h, zero_add] at hm
      nth_rewrite 2 [← hm]
      ring
    · exact ⟨rfl, hc⟩

/-- with enough fuel the loop ends with a number which is not divisible by `p²` -/
theorem strip_done (p : ℤ) (hp : 1 < p) : ∀ (k : ℕ) (m c : ℤ), m ≠ 0 → m.natAbs ≤ k →
    ¬ p ^ 2 ∣ (strip p k m c).1 := by
  intro k
  induction k with
  | zero => intro m c hm hk; omega
  | succ k ih =>
    intro m c hm hk
    unfold strip
    split_ifs with h
    · have hme := Int.fmod_add_mul_fdiv m (p ^ 2)
      rw [h, zero_add] at hme
      have hq : m.fdiv (p ^ 2) ≠ 0 := by
        intro h0; rw [h0, mul_zero] at hme; exact hm hme.symm
      refine ih _ _ hq ?_
      have h1 : m.natAbs = (p ^ 2).natAbs * (m.fdiv (p ^ 2)).natAbs := by rw [← Int.natAbs_mul, hme]
      have h2 : 2 ≤ (p ^ 2).natAbs := by
        have : 2 ≤ p ^ 2 := by nlinarith
        omega
      have h3 : 0 < (m.fdiv (p ^ 2)).natAbs := Int.natAbs_pos.mpr hq
      have h4 : 2 * (m.fdiv (p ^ 2)).natAbs ≤ m.natAbs := by
        rw [h1]; exact Nat.mul_le_mul_right _ h2
      omega
    · intro hd
      exact h (Int.fmod_eq_zero_of_dvd hd)

theorem stripAll_spec {a b : ℤ} : ∀ (ps : List ℤ) (s : Lem3), (∀ p ∈ ps, 1 < p) →
    s.m3 = 1 → Lem3.Inv a b s → Lem3.Inv a b (stripAll ps s) ∧ (stripAll ps s).m3 = 1 := by
  intro ps
  induction ps with
  | nil => intro s _ h3 h; exact ⟨h, h3⟩
  | cons p ps ih =>
    intro s hps h3 h
    unfold stripAll
    have hp : 1 < p := hps p (by simp)
    obtain ⟨u1, u2⟩ := strip_spec p hp s.m1.natAbs s.m1 s.c1 h.p1
    obtain ⟨v1, v2⟩ := strip_spec p hp s.m2.natAbs s.m2 s.c2 h.p2
    refine ih _ (fun q hq => hps q (by simp [hq])) h3 ⟨?_, ?_, h.p3, u2, v2⟩
    · simp only
      rw [h.e1]
      linear_combination (-s.m3) * u1
    · simp only
      rw [h.e2]
      linear_combination (-s.m3) * v1

theorem gcd_facts {m n : ℤ} (hm : m ≠ 0) : ∃ d u v : ℤ, gcd m n = d ∧ 0 < d ∧ m = d * u ∧ n = d * v ∧ IsCoprime u v ∧
    m.fdiv d = u ∧ n.fdiv d = v := by
  have hd : 0 < gcd m n := by exact_mod_cast Int.gcd_pos_of_ne_zero_left _ hm
  obtain ⟨u, hu⟩ : gcd m n ∣ m := Int.gcd_dvd_left _ _
  obtain ⟨v, hv⟩ : gcd m n ∣ n := Int.gcd_dvd_right _ _
  refine ⟨gcd m n, u, v, rfl, hd, hu, hv, coprime_quot hd.ne' rfl hu hv, ?_, ?_⟩
  · nth_rewrite 1 [hu]; rw [Int.mul_fdiv_cancel_left _ hd.ne']
  · nth_rewrite 1 [hv]; rw [Int.mul_fdiv_cancel_left _ hd.ne']

theorem coprime_of_gcd_le {m n : ℤ} (hm : m ≠ 0) (h : ¬ gcd m n > 1) : IsCoprime m n := by
  rw [Int.isCoprime_iff_gcd_eq_one]
  have hd : 0 < Int.gcd m n := Int.gcd_pos_of_ne_zero_left _ hm
  have h' : ¬ (Int.gcd m n : ℤ) > 1 := h
  omega

/-- the product which decreases -/
def Lem3.size (s : Lem3) : ℕ := (s.m1 * s.m2 * s.m3).natAbs

theorem size_lt {d w : ℤ} (hd : 1 < d) (hw : w ≠ 0) : w.natAbs < (d * w).natAbs := by
  rw [Int.natAbs_mul]
  have : 0 < w.natAbs := Int.natAbs_pos.mpr hw
  have : 2 ≤ d.natAbs := by omega
  nlinarith

theorem Lem3.Inv.ne {a b : ℤ} {s : Lem3} (h : Lem3.Inv a b s) (ha : a ≠ 0) (hb : b ≠ 0) : s.m1 ≠ 0 ∧ s.m2 ≠ 0 := by
  constructor
  · intro h0; apply ha; rw [h.e1, h0]; ring
  · intro h0; apply hb; rw [h.e2, h0]; ring

/-- one block of the loop: the pair `m1`, `m2` -/
theorem block12 {a b : ℤ} (ha : a ≠ 0) (hb : b ≠ 0) (s : Lem3) (f : Bool) (h : Lem3.Inv a b s)
    (hf : f = false → IsCoprime s.m1 s.m2) :
    let t := f && decide (gcd s.m1 s.m2 > 1)
    let s' := if t then
      { s with m1 := s.m1.fdiv (gcd s.m1 s.m2), m2 := s.m2.fdiv (gcd s.m1 s.m2), m3 := s.m3 * gcd s.m1 s.m2 } else s
    Lem3.Inv a b s' ∧ IsCoprime s'.m1 s'.m2 ∧ (t = false → s' = s) ∧ s'.size ≤ s.size ∧ (t = true → s'.size < s.size) := by
  intro t s'
  obtain ⟨hm1, hm2⟩ := h.ne ha hb
  obtain ⟨d, u, v, hd, hd0, e1, e2, hco, f1, f2⟩ := gcd_facts (n := s.m2) hm1
  have ht : t = (f && decide (d > 1)) := by show (f && decide (gcd s.m1 s.m2 > 1)) = _; rw [hd]
  by_cases hc : t = true
  · have hs' : s' = { s with m1 := u, m2 := v, m3 := s.m3 * d } := by
      show (if t then _ else s) = _
      rw [hd, f1, f2, if_pos hc]
    rw [ht] at hc
    simp only [Bool.and_eq_true, decide_eq_true_eq] at hc
    have hsz : s'.size < s.size := by
      rw [hs']
      show (u * v * (s.m3 * d)).natAbs < (s.m1 * s.m2 * s.m3).natAbs
      have : s.m1 * s.m2 * s.m3 = d * (u * v * (s.m3 * d)) := by rw [e1, e2]; ring
      rw [this]
      refine size_lt hc.2 ?_
      have hu0 : u ≠ 0 := fun h0 => hm1 (by rw [e1, h0, mul_zero])
      have hv0 : v ≠ 0 := fun h0 => hm2 (by rw [e2, h0, mul_zero])
      exact mul_ne_zero (mul_ne_zero hu0 hv0) (mul_ne_zero h.p3.ne' hd0.ne')
    refine ⟨?_, ?_, ?_, hsz.le, fun _ => hsz⟩
    · rw [hs']
      refine ⟨?_, ?_, mul_pos h.p3 hd0, h.p1, h.p2⟩
      · rw [h.e1, e1]; ring
      · rw [h.e2, e2]; ring
    · rw [hs']; exact hco
    · intro hct; rw [ht] at hct; simp [hc] at hct
  · have hs' : s' = s := by
      show (if t then _ else s) = _
      rw [if_neg hc]
    refine ⟨by rw [hs']; exact h, ?_, fun _ => hs', by rw [hs'], fun h' => absurd h' hc⟩
    rw [hs']
    rw [ht] at hc
    by_cases hff : f = true
    · apply coprime_of_gcd_le hm1
      rw [hd]
      simpa [hff] using hc
    · exact hf (by simpa using hff)

/-- the pair `m1`, `m3` -/
theorem block13 {a b : ℤ} (ha : a ≠ 0) (hb : b ≠ 0) (s : Lem3) (f : Bool) (h : Lem3.Inv a b s)
    (hf : f = false → IsCoprime s.m1 s.m3) :
    let t := f && decide (gcd s.m1 s.m3 > 1)
    let s' := if t then
      { s with m1 := s.m1.fdiv (gcd s.m1 s.m3), m2 := s.m2 * gcd s.m1 s.m3, m3 := s.m3.fdiv (gcd s.m1 s.m3),
               c1 := s.c1 * gcd s.m1 s.m3 } else s
    Lem3.Inv a b s' ∧ IsCoprime s'.m1 s'.m3 ∧ (t = false → s' = s) ∧ s'.size ≤ s.size ∧ (t = true → s'.size < s.size) := by
  intro t s'
  obtain ⟨hm1, hm2⟩ := h.ne ha hb
  obtain ⟨d, u, v, hd, hd0, e1, e2, hco, f1, f2⟩ := gcd_facts (n := s.m3) hm1
  have ht : t = (f && decide (d > 1)) := by show (f && decide (gcd s.m1 s.m3 > 1)) = _; rw [hd]
  by_cases hc : t = true
  · have hs' : s' = { s with m1 := u, m2 := s.m2 * d, m3 := v, c1 := s.c1 * d } := by
      show (if t then _ else s) = _
      rw [hd, f1, f2, if_pos hc]
    rw [ht] at hc
    simp only [Bool.and_eq_true, decide_eq_true_eq] at hc
    have hv0 : 0 < v := by
      have := h.p3
      rw [e2] at this
      exact pos_of_mul_pos_right this hd0.le
    have hsz : s'.size < s.size := by
      rw [hs']
      show (u * (s.m2 * d) * v).natAbs < (s.m1 * s.m2 * s.m3).natAbs
      have : s.m1 * s.m2 * s.m3 = d * (u * (s.m2 * d) * v) := by rw [e1, e2]; ring
      rw [this]
      refine size_lt hc.2 ?_
      have hu0 : u ≠ 0 := fun h0 => hm1 (by rw [e1, h0, mul_zero])
      exact mul_ne_zero (mul_ne_zero hu0 (mul_ne_zero hm2 hd0.ne')) hv0.ne'
    refine ⟨?_, ?_, ?_, hsz.le, fun _ => hsz⟩
    · rw [hs']
      refine ⟨?_, ?_, hv0, mul_pos h.p1 hd0, h.p2⟩
      · rw [h.e1, e1, e2]; ring
      · rw [h.e2, e2]; ring
    · rw [hs']; exact hco
    · intro hct; rw [ht] at hct; simp [hc] at hct
  · have hs' : s' = s := by
      show (if t then _ else s) = _
      rw [if_neg hc]
    refine ⟨by rw [hs']; exact h, ?_, fun _ => hs', by rw [hs'], fun h' => absurd h' hc⟩
    rw [hs']
    rw [ht] at hc
    by_cases hff : f = true
    · apply coprime_of_gcd_le hm1
      rw [hd]
      simpa [hff] using hc
    · exact hf (by simpa using hff)

/-- the pair `m2`, `m3` -/
theorem block23 {a b : ℤ} (ha : a ≠ 0) (hb : b ≠ 0) (s : Lem3) (f : Bool) (h : Lem3.Inv a b s)
    (hf : f = false → IsCoprime s.m2 s.m3) :
    let t := f && decide (gcd s.m2 s.m3 > 1)
    let s' := if t then
      { s with m1 := s.m1 * gcd s.m2 s.m3, m2 := s.m2.fdiv (gcd s.m2 s.m3), m3 := s.m3.fdiv (gcd s.m2 s.m3),
               c2 := s.c2 * gcd s.m2 s.m3 } else s
    Lem3.Inv a b s' ∧ IsCoprime s'.m2 s'.m3 ∧ (t = false → s' = s) ∧ s'.size ≤ s.size ∧ (t = true → s'.size < s.size) := by
  intro t s'
  obtain ⟨hm1, hm2⟩ := h.ne ha hb
  obtain ⟨d, u, v, hd, hd0, e1, e2, hco, f1, f2⟩ := gcd_facts (n := s.m3) hm2
  have ht : t = (f && decide (d > 1)) := by show (f && decide (gcd s.m2 s.m3 > 1)) = _; rw [hd]
  by_cases hc : t = true
  · have hs' : s' = { s with m1 := s.m1 * d, m2 := u, m3 := v, c2 := s.c2 * d } := by
      show (if t then _ else s) = _
      rw [hd, f1, f2, if_pos hc]
    rw [ht] at hc
    simp only [Bool.and_eq_true, decide_eq_true_eq] at hc
    have hv0 : 0 < v := by
      have := h.p3
      rw [e2] at this
      exact pos_of_mul_pos_right this hd0.le
    have hsz : s'.size < s.size := by
      rw [hs']
      show ((s.m1 * d) * u * v).natAbs < (s.m1 * s.m2 * s.m3).natAbs
      have : s.m1 * s.m2 * s.m3 = d * ((s.m1 * d) * u * v) := by rw [e1, e2]; ring
      rw [this]
      refine size_lt hc.2 ?_
      have hu0 : u ≠ 0 := fun h0 => hm2 (by rw [e1, h0, mul_zero])
      exact mul_ne_zero (mul_ne_zero (mul_ne_zero hm1 hd0.ne') hu0) hv0.ne'
    refine ⟨?_, ?_, ?_, hsz.le, fun _ => hsz⟩
    · rw [hs']
      refine ⟨?_, ?_, hv0, h.p1, mul_pos h.p2 hd0⟩
      · rw [h.e1, e2]; ring
      · rw [h.e2, e1, e2]; ring
    · rw [hs']; exact hco
    · intro hct; rw [ht] at hct; simp [hc] at hct
  · have hs' : s' = s := by
      show (if t then _ else s) = _
      rw [if_neg hc]
    refine ⟨by rw [hs']; exact h, ?_, fun _ => hs', by rw [hs'], fun h' => absurd h' hc⟩
    rw [hs']
    rw [ht] at hc
    by_cases hff : f = true
    · apply coprime_of_gcd_le hm2
      rw [hd]
      simpa [hff] using hc
    · exact hf (by simpa using hff)

theorem lem3Loop_spec {a b : ℤ} (ha : a ≠ 0) (hb : b ≠ 0) : ∀ (k : ℕ) (s : Lem3) (f12 f13 f23 : Bool),
    Lem3.Inv a b s → (f12 = false → IsCoprime s.m1 s.m2) → (f13 = false → IsCoprime s.m1 s.m3) →
    (f23 = false → IsCoprime s.m2 s.m3) → s.size < k →
    let r := lem3Loop k s f12 f13 f23
    Lem3.Inv a b r ∧ IsCoprime r.m1 r.m2 ∧ IsCoprime r.m1 r.m3 ∧ IsCoprime r.m2 r.m3 := by
  intro k
  induction k with
  | zero => intro s _ _ _ _ _ _ _ hk; omega
  | succ k ih =>
    intro s f12 f13 f23 h h12 h13 h23 hk
    unfold lem3Loop
    by_cases hf : (!(f12 || f13 || f23)) = true
    · simp only [hf, if_true]
      simp at hf
      exact ⟨h, h12 hf.1.1, h13 hf.1.2, h23 hf.2⟩
    · simp only [hf]
      have b1 := block12 ha hb s f12 h h12
      simp only at b1
      generalize hs1 : (if (f12 && decide (gcd s.m1 s.m2 > 1)) = true then
        ({ s with m1 := s.m1.fdiv (gcd s.m1 s.m2), m2 := s.m2.fdiv (gcd s.m1 s.m2),
                  m3 := s.m3 * gcd s.m1 s.m2 } : Lem3) else s) = s1 at b1 ⊢
      generalize ht12 : (f12 && decide (gcd s.m1 s.m2 > 1)) = t12 at b1 ⊢
      obtain ⟨i1, c12, k1, z1, z1'⟩ := b1
      have hf13 : (f13 || t12) = false → IsCoprime s1.m1 s1.m3 := by
        intro hff
        simp at hff
        rw [k1 hff.2]; exact h13 hff.1
      have b2 := block13 ha hb s1 (f13 || t12) i1 hf13
      simp only at b2
      generalize hs2 : (if ((f13 || t12) && decide (gcd s1.m1 s1.m3 > 1)) = true then
        ({ s1 with m1 := s1.m1.fdiv (gcd s1.m1 s1.m3), m2 := s1.m2 * gcd s1.m1 s1.m3,
                   m3 := s1.m3.fdiv (gcd s1.m1 s1.m3), c1 := s1.c1 * gcd s1.m1 s1.m3 } : Lem3) else s1) = s2 at b2 ⊢
      generalize ht13 : ((f13 || t12) && decide (gcd s1.m1 s1.m3 > 1)) = t13 at b2 ⊢
      obtain ⟨i2, c13, k2, z2, z2'⟩ := b2
      have hf23 : (f23 || t12 || t13) = false → IsCoprime s2.m2 s2.m3 := by
        intro hff
        simp at hff
        rw [k2 hff.2, k1 hff.1.2]; exact h23 hff.1.1
      have b3 := block23 ha hb s2 (f23 || t12 || t13) i2 hf23
      simp only at b3
      generalize hs3 : (if ((f23 || t12 || t13) && decide (gcd s2.m2 s2.m3 > 1)) = true then
        ({ s2 with m1 := s2.m1 * gcd s2.m2 s2.m3, m2 := s2.m2.fdiv (gcd s2.m2 s2.m3),
                   m3 := s2.m3.fdiv (gcd s2.m2 s2.m3), c2 := s2.c2 * gcd s2.m2 s2.m3 } : Lem3) else s2) = s3 at b3 ⊢
      generalize ht23 : ((f23 || t12 || t13) && decide (gcd s2.m2 s2.m3 > 1)) = t23 at b3 ⊢
      obtain ⟨i3, c23, k3, z3, z3'⟩ := b3
      simp only [Bool.false_eq_true, if_false]
      by_cases hall : (t12 || t13 || t23) = true
      · refine ih s3 _ _ _ i3 ?_ ?_ (fun _ => c23) ?_
        · intro hff
          simp at hff
          rw [k3 hff.2, k2 hff.1]; exact c12
        · intro hff
          rw [k3 hff]; exact c13
        · simp at hall
          rcases hall with (h' | h') | h'
          · have := z1' h'; omega
          · have := z2' h'; omega
          · have := z3' h'; omega
      · simp at hall
        obtain ⟨⟨q1, q2⟩, q3⟩ := hall
        rw [q2, q3]
        have e3 : s3 = s2 := k3 q3
        have e2 : s2 = s1 := k2 q2
        have hend : lem3Loop k s3 (false || false) false false = s3 := by
          cases k with
          | zero => rfl
          | succ k => simp [lem3Loop]
        rw [hend]
        exact ⟨i3, by rw [e3, e2]; exact c12, by rw [e3]; exact c13, c23⟩

/-- `lem3` -/
theorem lem3_spec (a b : ℤ) (ha : a ≠ 0) (hb : b ≠ 0) :
    let r := lem3 a b
    (a = r.c1 ^ 2 * r.m1 * r.m3 ∧ b = r.c2 ^ 2 * r.m2 * r.m3) ∧ (0 < r.m3 ∧ 0 < r.c1 ∧ 0 < r.c2) ∧
      IsCoprime r.m1 r.m2 ∧ IsCoprime r.m1 r.m3 ∧ IsCoprime r.m2 r.m3 := by
  intro r
  have hr : r = lem3 a b := rfl
  unfold lem3 at hr
  simp only [ha, hb, or_self, if_false] at hr
  obtain ⟨h1, h3⟩ := stripAll_spec (a := a) (b := b) smallp ⟨a, b, 1, 1, 1⟩ (by decide) rfl
    ⟨by simp, by simp, one_pos, one_pos, one_pos⟩
  generalize stripAll smallp ⟨a, b, 1, 1, 1⟩ = s at *
  have hsz : s.size < (a * b).natAbs + 1 := by
    have e : a * b = (s.c1 * s.c2) ^ 2 * (s.m1 * s.m2 * s.m3) := by
      rw [h1.e1, h1.e2, h3]; ring
    have : 1 ≤ ((s.c1 * s.c2) ^ 2).natAbs := by
      have : 0 < (s.c1 * s.c2) ^ 2 := by have := h1.p1; have := h1.p2; positivity
      omega
    unfold Lem3.size
    rw [e, Int.natAbs_mul ((s.c1 * s.c2) ^ 2)]
    exact Nat.lt_succ_of_le (Nat.le_mul_of_pos_left _ this)
  obtain ⟨i, c1, c2, c3⟩ := lem3Loop_spec ha hb _ s true true true h1 (by simp) (by simp) (by simp) hsz
  rw [hr]
  exact ⟨⟨i.e1, i.e2⟩, ⟨i.p3, i.p1, i.p2⟩, c1, c2, c3⟩

end Eclib.Legendre
