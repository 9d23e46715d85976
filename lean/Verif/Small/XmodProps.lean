import Verif.Small.XmodModel
import Verif.Arith.Spec
import Mathlib.Tactic.NormNum
import Mathlib.Data.Nat.Prime.Basic

/-!
# Property theorems for arithmetic modulo `BIGPRIME` (C08)
-/

namespace Eclib.Xmod.Props

open Eclib.Xmod

/-- The part of `xmm0` without divisions, on reduced arguments. -/
theorem core (x y : Int) (hx0 : 0 ≤ x) (hx : x < P) (hy0 : 0 ≤ y) (hy : y < P) :
    let ab := x * y
    let t := INV * (ab / 2 ^ 30)
    let u := (t / 2 ^ 32) * P
    let r := ab - u
    I64 ab ∧ I64 t ∧ I64 u ∧ 0 ≤ r ∧ r < 3 * P := by
  intro ab t u r
  have hab0 : 0 ≤ ab := mul_nonneg hx0 hy0
  have hab : ab ≤ (P - 1) * (P - 1) := by
    simp only [ab]
    have h1 : x ≤ P - 1 := by omega
    have h2 : y ≤ P - 1 := by omega
    exact mul_le_mul h1 h2 hy0 (by decide)
  unfold I64
  simp only [r, u, t]
  generalize ab = m at *
  simp only [P, INV] at *
  omega

/-- C08: `xmm0(a,b)` for residues `|a|,|b| < BIGPRIME`: no overflow, the result is congruent to the
product, and in absolute value smaller than `BIGPRIME`; it lies in the symmetric range unless one
of the shortcuts for `±1` was taken. -/
theorem C08_xmm0 (a b : Int) (ha : |a| < P) (hb : |b| < P) :
    ∃ r, xmm0 a b = some r ∧ Spec.Cong P r (a * b) ∧ |r| < P ∧
      (|a| ≠ 1 → |b| ≠ 1 → -HALF ≤ r ∧ r ≤ HALF) := by
  have hP : P = 1073741789 := rfl
  have hH : HALF = 536870894 := by decide
  have ha' := abs_lt.mp ha
  have hb' := abs_lt.mp hb
  unfold xmm0
  by_cases h1 : a = 1
  · rw [if_pos h1]
    exact ⟨b, rfl, by rw [h1, one_mul]; exact ⟨0, by ring⟩, hb, fun h => absurd (by rw [h1]; rfl) h⟩
  rw [if_neg h1]
  by_cases h2 : a = -1
  · rw [if_pos h2]
    refine ⟨-b, ?_, by rw [h2]; exact ⟨0, by ring⟩, by rwa [abs_neg],
      fun h => absurd (by rw [h2]; rfl) h⟩
    unfold i32; rw [if_pos]; unfold I32; omega
  rw [if_neg h2]
  by_cases h3 : b = 1
  · rw [if_pos h3]
    exact ⟨a, rfl, by rw [h3, mul_one]; exact ⟨0, by ring⟩, ha,
      fun _ h => absurd (by rw [h3]; rfl) h⟩
  rw [if_neg h3]
  by_cases h4 : b = -1
  · rw [if_pos h4]
    refine ⟨-a, ?_, by rw [h4]; exact ⟨0, by ring⟩, by rwa [abs_neg],
      fun _ h => absurd (by rw [h4]; rfl) h⟩
    unfold i32; rw [if_pos]; unfold I32; omega
  rw [if_neg h4]
  -- the reduced arguments
  have red : ∀ z : Int, -P < z → z < P → ∃ w, lift z = some w ∧
      0 ≤ w ∧ w < P ∧ P ∣ w - z := by
    intro z hz1 hz2
    unfold lift
    split_ifs with hz
    · refine ⟨z + P, ?_, by omega, by omega, ⟨1, by ring⟩⟩
      unfold i32; rw [if_pos]; unfold I32; omega
    · exact ⟨z, rfl, by omega, hz2, ⟨0, by ring⟩⟩
  obtain ⟨x, ex, hx0, hx, hxa⟩ := red a ha'.1 ha'.2
  obtain ⟨y, ey, hy0, hy, hyb⟩ := red b hb'.1 hb'.2
  obtain ⟨c1, c2, c3, c4, c5⟩ := core x y hx0 hx hy0 hy
  rw [ex, ey]
  set ab := x * y with hab
  set t := INV * (ab / 2 ^ 30) with ht
  set u := (t / 2 ^ 32) * P with hu
  set r := ab - u with hr
  have hab' : P ∣ ab - a * b := by
    have e : ab - a * b = (x - a) * y + a * (y - b) := by rw [hab]; ring
    rw [e]; exact dvd_add (hxa.mul_right y) (hyb.mul_left a)
  have hr' : P ∣ r - a * b := by
    have e : r - a * b = (ab - a * b) - (t / 2 ^ 32) * P := by rw [hr, hu]; ring
    rw [e]; exact dvd_sub hab' (dvd_mul_left _ _)
  have chk : ∀ z : Int, I64 z → i64 z = some z := fun z hz => by unfold i64; rw [if_pos hz]
  have hr64 : I64 r := by unfold I64; omega
  simp only [Option.bind_eq_bind, Option.bind_some]
  rw [← hab, chk ab c1, Option.bind_some, ← ht, chk t c2, Option.bind_some, ← hu, chk u c3,
    Option.bind_some, ← hr, chk r hr64, Option.bind_some]
  -- the final subtractions
  obtain ⟨r1, er1, hr10, hr1P, hr1⟩ : ∃ r1, r - ((if r ≥ TWO then P else 0) +
      (if r ≥ P then P else 0)) = r1 ∧ 0 ≤ r1 ∧ r1 < P ∧ P ∣ r1 - a * b := by
    refine ⟨_, rfl, ?_⟩
    have hT : TWO = 2147483578 := rfl
    split_ifs with g1 g2 g2
    · refine ⟨by omega, by omega, ?_⟩
      have e : r - (P + P) - a * b = (r - a * b) - P * 2 := by ring
      rw [e]; exact dvd_sub hr' (dvd_mul_right _ _)
    · omega
    · refine ⟨by omega, by omega, ?_⟩
      have e : r - (0 + P) - a * b = (r - a * b) - P * 1 := by ring
      rw [e]; exact dvd_sub hr' (dvd_mul_right _ _)
    · refine ⟨by omega, by omega, ?_⟩
      have e : r - (0 + 0) - a * b = r - a * b := by ring
      rw [e]; exact hr'
  rw [er1, chk r1 (by unfold I64; omega), Option.bind_some]
  obtain ⟨r2, er2, hl, hh, hr2⟩ : ∃ r2, (if r1 > HALF then r1 - P else r1) = r2 ∧ -HALF ≤ r2 ∧
      r2 ≤ HALF ∧ P ∣ r2 - a * b := by
    refine ⟨_, rfl, ?_⟩
    split_ifs with g
    · refine ⟨by omega, by omega, ?_⟩
      have e : r1 - P - a * b = (r1 - a * b) - P * 1 := by ring
      rw [e]; exact dvd_sub hr1 (dvd_mul_right _ _)
    · exact ⟨by omega, by omega, hr1⟩
  rw [er2, chk r2 (by unfold I64; omega), Option.bind_some]
  refine ⟨r2, ?_, hr2, by rw [abs_lt]; constructor <;> omega, fun _ _ => ⟨hl, hh⟩⟩
  unfold i32; rw [if_pos]; unfold I32; omega

example : xmm0 (-1073741700) 536870900 = some (-536870405) ∧ |(-1073741700 : Int)| < P := by decide +kernel

/-- C08: `mod0(a)` is the symmetric residue of any `a`. -/
theorem C08_mod0 (a : Int) : Spec.Cong P (mod0 a) a ∧ -HALF ≤ mod0 a ∧ mod0 a ≤ HALF := by
  have hP : P = 1073741789 := rfl
  have hH : HALF = 536870894 := by decide
  have habs : (a.tmod P).natAbs < P.natAbs := by
    rw [Int.natAbs_tmod]; exact Nat.mod_lt _ (by decide)
  obtain ⟨k, hk⟩ : P ∣ a - a.tmod P := Arith.tmod_dvd_sub a P
  unfold mod0
  simp only
  generalize a.tmod P = c at *
  have hPn : P.natAbs = 1073741789 := rfl
  by_cases h0 : c > 0
  · rw [if_pos h0]
    rw [downLoop]
    split_ifs with h
    · rw [downLoop, dif_neg (by omega)]
      exact ⟨⟨-k - 1, by linarith⟩, by omega, by omega⟩
    · exact ⟨⟨-k, by linarith⟩, by omega, by omega⟩
  · rw [if_neg h0]
    rw [upLoop]
    split_ifs with h
    · rw [upLoop, dif_neg (by omega)]
      exact ⟨⟨-k + 1, by linarith⟩, by omega, by omega⟩
    · exact ⟨⟨-k, by linarith⟩, by omega, by omega⟩

example : mod0 (-600000000) = 473741789 := by decide +kernel

theorem tmod_bound (x m : Int) (hm : m ≠ 0) : |x.tmod m| < |m| := by
  have : (x.tmod m).natAbs < m.natAbs := by
    rw [Int.natAbs_tmod]; exact Nat.mod_lt _ (by omega)
  rw [Int.abs_eq_natAbs, Int.abs_eq_natAbs]; exact_mod_cast this

theorem mul_fits (a b : Int) (ha : I32 a) (hb : I32 b) : I64 (a * b) := by
  have h1 : |a| ≤ 2147483648 := abs_le.mpr ⟨by have := ha.1; omega, by have := ha.2; omega⟩
  have h2 : |b| ≤ 2147483648 := abs_le.mpr ⟨by have := hb.1; omega, by have := hb.2; omega⟩
  have h3 : |a * b| ≤ 2147483648 * 2147483648 := by
    rw [abs_mul]; exact mul_le_mul h1 h2 (abs_nonneg _) (by norm_num)
  have := abs_le.mp h3
  exact ⟨by omega, by omega⟩

/-- The plain reduction of a product, used by `xmodmul` and `xmodmul0`. -/
theorem plain (a b m : Int) (ha : I32 a) (hb : I32 b) (hm : m ≠ 0) (hm' : I32 m) :
    ∃ r, ((i64 (a * b)).bind fun ab => (i32 (ab.tmod m)).map (·.tmod m)) = some r ∧
      Spec.Cong m r (a * b) ∧ |r| < |m| := by
  have h1 := tmod_bound (a * b) m hm
  have h2 : I32 ((a * b).tmod m) := by
    have hmm : |m| ≤ 2147483648 := abs_le.mpr ⟨by have := hm'.1; omega, by have := hm'.2; omega⟩
    have := abs_lt.mp h1
    exact ⟨by omega, by omega⟩
  refine ⟨((a * b).tmod m).tmod m, ?_, ?_, tmod_bound _ m hm⟩
  · unfold i64 i32
    rw [if_pos (mul_fits a b ha hb), Option.bind_some, if_pos h2, Option.map_some]
  · have e1 := Arith.tmod_dvd_sub (a * b) m
    have e2 := Arith.tmod_dvd_sub ((a * b).tmod m) m
    have := dvd_add e1 e2
    unfold Spec.Cong
    rw [← dvd_neg]
    convert this using 1
    ring

/-- C08: `xmodmul(a,b,m)` for `int` residues modulo any non-zero `m`. -/
theorem C08_xmodmul (a b m : Int) (hm : m ≠ 0) (hm' : I32 m) (ha : |a| < |m|) (hb : |b| < |m|) :
    ∃ r, xmodmul a b m = some r ∧ Spec.Cong m r (a * b) ∧ |r| < |m| := by
  unfold xmodmul
  have hmm : |m| ≤ 2147483648 := abs_le.mpr ⟨by have := hm'.1; omega, by have := hm'.2; omega⟩
  split_ifs with h
  · rw [h] at ha hb ⊢
    have e : |P| = P := by decide
    rw [e] at ha hb ⊢
    obtain ⟨r, h1, h2, h3, -⟩ := C08_xmm0 a b ha hb
    exact ⟨r, h1, h2, h3⟩
  · have h1 := abs_lt.mp (ha.trans_le hmm)
    have h2 := abs_lt.mp (hb.trans_le hmm)
    exact plain a b m ⟨by omega, by omega⟩ ⟨by omega, by omega⟩ hm hm'

example : xmodmul 5 (-4) 7 = some (-6) := by decide +kernel

/-- C08: `xmodmul0(a,b)` for arbitrary `int` arguments. -/
theorem C08_xmodmul0 (a b : Int) (ha : I32 a) (hb : I32 b) :
    ∃ r, xmodmul0 a b = some r ∧ Spec.Cong P r (a * b) ∧ |r| < P := by
  obtain ⟨r, h1, h2, h3⟩ := plain a b P ha hb (by decide) (by decide)
  exact ⟨r, h1, h2, h3⟩

example : I32 (-2147483648) ∧ I32 2147483647 := by decide

theorem table_ok : ∀ i : Fin 20, 0 < i.val →
    P ∣ (i.val : Int) * tableInvs.getD i.val 0 - 1 ∧ |tableInvs.getD i.val 0| < P := by
  decide +kernel

theorem table_ok' (z : Int) (h0 : 0 < z) (h : z < 20) :
    P ∣ z * tableInvs.getD z.toNat 0 - 1 ∧ |tableInvs.getD z.toNat 0| < P := by
  have := table_ok ⟨z.toNat, by omega⟩ (by simp only; omega)
  simp only at this
  rwa [Int.toNat_of_nonneg h0.le] at this

/-- The loop of `invmod0`: no overflow, and the invariants on exit. -/
theorem invLoop_spec (aa : Int) (a b x oldx : Int) (ha : |a| ≤ P) (hb : |b| ≤ P)
    (hcol : Arith.Column P a b oldx x) (hold : |oldx| ≤ P) (hx : |x| ≤ P)
    (h1 : P ∣ a - aa * oldx) (h2 : P ∣ b - aa * x) :
    ∃ g v, invLoop a b x oldx = some (g, v) ∧ P ∣ g - aa * v ∧ |v| ≤ P ∧
      g.natAbs = Int.gcd a b := by
  have hP : P = 1073741789 := rfl
  have fits : ∀ z : Int, |z| ≤ 2 * P - 1 → I32 z := fun z hz => by
    have := abs_le.mp hz
    exact ⟨by omega, by omega⟩
  induction hn : b.natAbs using Nat.strong_induction_on generalizing a b x oldx with
  | _ n ih =>
    rw [invLoop]
    split_ifs with hb0
    · refine ⟨a, oldx, rfl, h1, hold, ?_⟩
      rw [hb0, Int.gcd_zero_right]
    · have e := Arith.abs_tdiv_tmod a b
      have e1 : 1 ≤ |b| := Int.one_le_abs hb0
      have e2 := abs_nonneg (a.tdiv b)
      have e3 := abs_nonneg (a.tmod b)
      have hc : a - a.tdiv b * b = a.tmod b := by
        have := Int.tmod_add_mul_tdiv a b
        linarith [mul_comm b (a.tdiv b)]
      have hq : |a.tdiv b| ≤ |a| := by nlinarith
      have hqb : |a.tdiv b * b| ≤ |a| := by rw [abs_mul]; omega
      have hcb : |a.tmod b| ≤ |a| := by
        have := mul_nonneg e2 (abs_nonneg b)
        omega
      have hstep := hcol.step hb0
      have hnew := hstep.bound_x hb0
      have hqx : |a.tdiv b * x| ≤ P := by
        have h' := Arith.abs_sub_of_opp (hcol.sign_q hb0)
        have := abs_nonneg oldx
        omega
      have hok : I32 (a.tdiv b) ∧ I32 (a.tdiv b * b) ∧ I32 (a - a.tdiv b * b) ∧
          I32 (a.tdiv b * x) ∧ I32 (oldx - a.tdiv b * x) :=
        ⟨fits _ (by omega), fits _ (by omega), fits _ (by rw [hc]; omega), fits _ (by omega),
          fits _ (by omega)⟩
      simp only
      rw [if_pos hok]
      have hlt : (a - a.tdiv b * b).natAbs < n := by
        rw [hc, Int.natAbs_tmod, ← hn]
        exact Nat.mod_lt _ (Int.natAbs_pos.mpr hb0)
      have hd : P ∣ a - a.tdiv b * b - aa * (oldx - a.tdiv b * x) := by
        have e : a - a.tdiv b * b - aa * (oldx - a.tdiv b * x) =
            (a - aa * oldx) - a.tdiv b * (b - aa * x) := by ring
        rw [e]; exact dvd_sub h1 (h2.mul_left _)
      obtain ⟨g, v, f1, f2, f3, f4⟩ := ih _ hlt b (a - a.tdiv b * b) (oldx - a.tdiv b * x) x hb
        (by rw [hc]; omega) hstep hx hnew h2 hd rfl
      refine ⟨g, v, f1, f2, f3, ?_⟩
      rw [f4]
      have : a - a.tdiv b * b = a + b * (-(a.tdiv b)) := by ring
      rw [this, Int.gcd_add_mul_left_right, Int.gcd_comm]

/-- None of `lo, …, lo + 2^n - 1` divides `m`. -/
def noDiv (m lo : Nat) : Nat → Bool
  | 0 => m % lo != 0
  | n + 1 => noDiv m lo n && noDiv m (lo + 2 ^ n) n

theorem noDiv_spec (m n : Nat) : ∀ lo, noDiv m lo n = true →
    ∀ d, lo ≤ d → d < lo + 2 ^ n → ¬ d ∣ m := by
  induction n with
  | zero =>
    intro lo h d h1 h2 hd
    have : d = lo := by simp at h2; omega
    subst this
    simp only [noDiv, bne_iff_ne, ne_eq] at h
    exact h (Nat.mod_eq_zero_of_dvd hd)
  | succ n ih =>
    intro lo h d h1 h2 hd
    simp only [noDiv, Bool.and_eq_true] at h
    rw [pow_succ] at h2
    by_cases hc : d < lo + 2 ^ n
    · exact ih lo h.1 d h1 hc hd
    · exact ih _ h.2 d (by omega) (by omega) hd

theorem P_prime : Nat.Prime 1073741789 := by
  rw [Nat.prime_def_le_sqrt]
  refine ⟨by norm_num, fun d h2 hd => ?_⟩
  have hs : Nat.sqrt 1073741789 < 32770 := by rw [Nat.sqrt_lt]; norm_num
  have h : noDiv 1073741789 2 15 = true := by decide +kernel
  exact noDiv_spec _ _ _ h d h2 (by omega)

/-- C08: `invmod0(a)` for every non-zero residue `|a| < BIGPRIME`: no overflow, and the result is an
inverse of `a` modulo `BIGPRIME`. -/
theorem C08_invmod0 (a : Int) (h0 : a ≠ 0) (ha : |a| < P) :
    ∃ r, invmod0 a = some r ∧ Spec.Cong P (a * r) 1 ∧ |r| ≤ P := by
  have hP : P = 1073741789 := rfl
  have ha' := abs_lt.mp ha
  have chk : ∀ z : Int, I32 z → i32 z = some z := fun z hz => by unfold i32; rw [if_pos hz]
  unfold invmod0
  by_cases c1 : 0 < a ∧ a < 20
  · rw [if_pos c1]
    have := table_ok' a c1.1 c1.2
    exact ⟨_, rfl, this.1, this.2.le⟩
  rw [if_neg c1, chk (-a) ⟨by omega, by omega⟩, Option.bind_some]
  by_cases c2 : 0 < -a ∧ -a < 20
  · rw [if_pos c2]
    have := table_ok' (-a) c2.1 c2.2
    refine ⟨_, rfl, ?_, by rw [abs_neg]; exact this.2.le⟩
    have h := this.1
    unfold Spec.Cong
    convert h using 1
    ring
  rw [if_neg c2, chk (-a + P) ⟨by omega, by omega⟩, Option.bind_some]
  by_cases c3 : 0 < -a + P ∧ -a + P < 20
  · rw [if_pos c3]
    have := table_ok' (-a + P) c3.1 c3.2
    refine ⟨_, rfl, ?_, by rw [abs_neg]; exact this.2.le⟩
    obtain ⟨k, hk⟩ := this.1
    exact ⟨k - tableInvs.getD (-a + P).toNat 0, by linear_combination hk⟩
  rw [if_neg c3, chk (a - P) ⟨by omega, by omega⟩, Option.bind_some]
  rw [if_neg (by omega)]
  obtain ⟨g, v, f1, f2, f3, f4⟩ := invLoop_spec a a P 0 1 ha.le (by decide)
    ⟨by simp; decide, by simp⟩ (by decide) (by decide) (by simp) (by simp)
  have hg : Int.gcd a P = 1 := by
    rw [← Int.isCoprime_iff_gcd_eq_one]
    have hpr : Prime P := by
      rw [Int.prime_iff_natAbs_prime]; exact P_prime
    refine ((Prime.coprime_iff_not_dvd hpr).mpr fun hd => ?_).symm
    have := Int.le_of_dvd (abs_pos.mpr h0) ((dvd_abs _ _).mpr hd)
    omega
  rw [hg] at f4
  rw [f1, Option.bind_some]
  simp only
  have hg' : g = 1 ∨ g = -1 := by omega
  rcases hg' with rfl | rfl
  · rw [if_pos rfl]
    refine ⟨v, rfl, ?_, f3⟩
    unfold Spec.Cong
    have e : a * v - 1 = -(1 - a * v) := by ring
    rw [e, dvd_neg]; exact f2
  · rw [if_neg (by decide), if_pos rfl, chk (-v) (by have := abs_le.mp f3; exact ⟨by omega, by omega⟩)]
    refine ⟨-v, rfl, ?_, by rwa [abs_neg]⟩
    unfold Spec.Cong
    have e : a * -v - 1 = -1 - a * v := by ring
    rw [e]; exact f2

example : invmod0 12345 = some 177521830 ∧ (12345 : Int) ≠ 0 ∧ |(12345 : Int)| < P := by
  decide +kernel

/-- C08: `invmod0(0)` returns 0 (after printing a message). -/
theorem C08_invmod0_zero : invmod0 0 = some 0 := by
  unfold invmod0 i32
  rw [if_neg (by decide), if_pos (by decide), Option.bind_some, if_neg (by decide),
    if_pos (by decide), Option.bind_some, if_neg (by decide), if_pos (by decide), Option.bind_some,
    if_neg (by decide), invLoop, dif_neg (by decide)]
  simp only
  rw [if_pos (by decide), invLoop, dif_pos (by decide)]
  rfl

end Eclib.Xmod.Props
