import Verif.Lift.Model
import Verif.Marith.Props
import Verif.Smat.ArithProps
import Verif.Elim.SubProps
import Mathlib.Tactic.NormNum.Prime

/-!
# C83–C86: lifting from a prime field to the rationals
-/

set_option linter.unusedSectionVars false

namespace Eclib.Lift

open Svec (T SV smod sxmodmul sdiv sgcd)
open Smat (SM Row Rep Is)
open Mat (smodrat sinvmod)
open Svec.Props (Red)
open Smat.Props (Least)
open Marith Marith.Props

/-! ### scalars -/

/-- the specification: `x/y` is a small fraction congruent to `v` modulo `p` -/
def Small (p v x y : ℤ) : Prop := 0 < y ∧ 2 * x ^ 2 ≤ p ∧ 2 * y ^ 2 ≤ p ∧ Spec.Cong p x (v * y)

theorem slcm_eq (t : T) {a b : ℤ} (ha : 0 < a) (hb : 0 < b) : slcm t a b = Int.lcm a b := by
  obtain ⟨h0, h1, h2, h3⟩ := Svec.Props.sgcd_spec t a b
  have hg : sgcd t a b = Int.gcd a b := by
    apply Int.dvd_antisymm h0 (Int.natCast_nonneg _)
    · exact Int.dvd_coe_gcd h1 h2
    · exact h3 _ (Int.gcd_dvd_left ..) (Int.gcd_dvd_right ..)
  have hpos : (0 : ℤ) < Int.gcd a b := by exact_mod_cast Int.gcd_pos_of_ne_zero_left _ ha.ne'
  unfold slcm
  rw [hg, if_neg hpos.ne']
  have hdiv : sdiv t b (Int.gcd a b) = b / Int.gcd a b := by
    have hd := Int.gcd_dvd_right a b
    generalize (Int.gcd a b : ℤ) = g at hd hpos
    obtain ⟨k, rfl⟩ := hd
    rw [Int.mul_ediv_cancel_left _ hpos.ne']
    cases t
    · exact Int.mul_tdiv_cancel_left _ hpos.ne'
    · exact Int.mul_tdiv_cancel_left _ hpos.ne'
    · exact Int.mul_fdiv_cancel_left _ hpos.ne'
  rw [hdiv]
  have h4 : (Int.gcd a b : ℤ) * Int.lcm a b = a * b := by
    have := Int.gcd_mul_lcm a b
    have h5 : ((Int.gcd a b * Int.lcm a b : ℕ) : ℤ) = |a * b| := by
      rw [this]
      push_cast
      rw [abs_mul]
    push_cast at h5
    rw [h5, abs_of_pos (mul_pos ha hb)]
  have h6 : (Int.gcd a b : ℤ) * (a * (b / Int.gcd a b)) = a * b := by
    have := Int.mul_ediv_cancel' (Int.gcd_dvd_right a b)
    linear_combination a * this
  exact mul_left_cancel₀ hpos.ne' (h6.trans h4.symm)

theorem slcm_pos (t : T) {a b : ℤ} (ha : 0 < a) (hb : 0 < b) : 0 < slcm t a b := by
  rw [slcm_eq t ha hb]
  exact_mod_cast Int.lcm_pos ha.ne' hb.ne'

/-- the fraction found by `modrat` -/
theorem modrat_spec {q : ℕ} (hq : q.Prime) (n : ℤ) : ∃ a b ok, modratLong n q = some (a, b, ok) ∧ Spec.Cong q a (n * b) ∧
    b ≠ 0 ∧ |b| < q ∧ IsCoprime a b ∧ (ok = true ↔ 2 * a ^ 2 ≤ q ∧ 2 * b ^ 2 ≤ q) := by
  have hq2 : (2 : ℤ) ≤ q := by exact_mod_cast hq.two_le
  have hm : (0 : ℤ) < q := by omega
  have hmod : (q : ℤ) ∣ Arith.mod n q - n := (Arith.Props.C04_mod n q hm.ne').1
  have hi := gauss_init _ _ _ hmod
  obtain ⟨r, hr, hinv⟩ := GState.loop_inv (by omega) true _ hi
  obtain ⟨hQ, q1, q2, q3⟩ := GState.loop_reduced _ hi rfl r hr
  have hP := hinv.P
  have hR := hinv.R
  have hdet := hinv.det
  have hPnn : 0 ≤ r.P := by rw [hP]; nlinarith [mul_self_nonneg r.a, mul_self_nonneg r.b]
  -- 3 P^2 ≤ 4 q^2
  have hlag : r.P * r.R - r.Q ^ 2 = (q : ℤ) ^ 2 := by
    rw [hP, hR, hQ]
    linear_combination (r.a * r.d - r.b * r.c - q) * hdet
  have hQP : 4 * r.Q ^ 2 ≤ r.P ^ 2 := by
    have : (2 * r.Q) ^ 2 ≤ r.P ^ 2 := sq_le_sq' (by omega) q2
    nlinarith
  have hPR : r.P ^ 2 ≤ r.P * r.R := by
    rw [sq]
    exact mul_le_mul_of_nonneg_left q3 hPnn
  have hmain : 3 * r.P ^ 2 ≤ 4 * (q : ℤ) ^ 2 := by nlinarith
  have hlt : r.P < (q : ℤ) ^ 2 := by
    by_contra h
    push Not at h
    have h1 : (q : ℤ) ^ 2 * (q : ℤ) ^ 2 ≤ r.P ^ 2 := by
      rw [sq r.P]
      exact mul_le_mul h h (by positivity) hPnn
    have h4 : (4 : ℤ) ≤ (q : ℤ) ^ 2 := by nlinarith
    nlinarith
  have hb0 : r.b ≠ 0 := by
    intro hb
    have h1 : (q : ℤ) ∣ r.a := by
      have := hinv.la
      rwa [hb, mul_zero, sub_zero] at this
    obtain ⟨k, hk⟩ := h1
    have hk0 : k ≠ 0 := by
      rintro rfl
      rw [hb, hk] at hdet
      simp at hdet
      omega
    have : 1 ≤ k ^ 2 := by
      have : 0 < k ^ 2 := by positivity
      omega
    have : r.P = (q : ℤ) ^ 2 * k ^ 2 := by rw [hP, hb, hk]; ring
    nlinarith [sq_nonneg (q : ℤ)]
  have hbq : |r.b| < q := by
    rw [← abs_of_pos hm, ← sq_lt_sq]
    nlinarith [mul_self_nonneg r.a]
  have hcop : IsCoprime r.a r.b := by
    rw [Int.isCoprime_iff_gcd_eq_one]
    have hd : (Int.gcd r.a r.b : ℤ) ∣ q := by
      rw [← dvd_neg, ← hdet]
      exact dvd_sub ((Int.gcd_dvd_left ..).mul_right _) ((Int.gcd_dvd_right ..).mul_right _)
    rcases (Nat.dvd_prime hq).1 (by exact_mod_cast hd) with h | h
    · exact h
    · exfalso
      have h1 : (q : ℤ) ∣ r.b := by rw [← h]; exact Int.gcd_dvd_right ..
      have := Int.le_of_dvd (abs_pos.2 hb0) ((dvd_abs _ _).2 h1)
      omega
  refine ⟨r.a, r.b, decide (2 * (r.a * r.a) ≤ (q : ℤ)) && decide (2 * (r.b * r.b) ≤ (q : ℤ)),
    by simp only [modratLong, gaussReduce, hr, Option.map_some], hinv.la, hb0, hbq, hcop, ?_⟩
  simp only [Bool.and_eq_true, decide_eq_true_eq, sq]

theorem smodrat_eq {t : T} (ht : t ≠ .big) (n m : ℤ) : smodrat t n m = modratLong n m := by
  cases t
  · rfl
  · rfl
  · exact absurd rfl ht

theorem lim_lt {q : ℕ} {v : ℤ} (h : |v| < lim q) : 2 * v ^ 2 ≤ q := by
  unfold lim at h
  have h1 : v.natAbs < Nat.sqrt ((q : ℤ) / 2).toNat := by
    have : ((v.natAbs : ℕ) : ℤ) = |v| := Int.natCast_natAbs v
    omega
  have h2 := Nat.le_sqrt.1 h1.le
  have h3 : ((q : ℤ) / 2).toNat = q / 2 := by omega
  rw [h3] at h2
  have h4 : v ^ 2 = ((v.natAbs * v.natAbs : ℕ) : ℤ) := by
    push_cast
    rw [abs_mul_abs_self, sq]
  rw [h4]
  omega

/-! ### sparse matrices -/

section sparse

variable {r c : ℕ} {z : Prop}

theorem vals_spec {m : SM} {A : Matrix (Fin r) (Fin c) ℤ} (h : Rep z m A) :
    ∃ l, vals m = some l ∧ (∀ v ∈ l, ∃ i j, v = A i j) ∧ ∀ i j, A i j ≠ 0 → A i j ∈ l := by
  obtain ⟨ls, e, hl, hp⟩ := Smat.mapM_spec Row.read (fun i l => ∀ hi : i < r, Is z l (A ⟨i, hi⟩)) m.rows 0 (by
    intro i hi
    obtain ⟨l, e, hl⟩ := h.row ⟨i, h.nro ▸ hi⟩
    unfold Smat.SM.readRow at e
    simp only [List.getElem?_eq_getElem hi, Option.bind_some] at e
    exact ⟨l, e, fun hi' => by simpa using hl⟩)
  refine ⟨ls.flatMap fun l => l.map (·.2), by unfold vals; rw [e, Option.map_some], ?_, ?_⟩
  · intro v hv
    simp only [List.mem_flatMap, List.mem_map] at hv
    obtain ⟨l, hl1, f, hf, rfl⟩ := hv
    obtain ⟨i, hi, rfl⟩ := List.getElem_of_mem hl1
    obtain ⟨j, -, hj⟩ := Elim.Is.mem (hp i hi (by rw [hl, h.nro] at hi; omega)) hf
    exact ⟨_, j, hj⟩
  · intro i j hij
    have hi : (i : ℕ) < ls.length := by rw [hl, h.nro]; exact i.2
    have hIs := hp i hi (by omega)
    have hv := hIs.val j
    simp only [Nat.zero_add, Fin.eta] at hv
    unfold Svec.elem at hv
    simp only [List.mem_flatMap, List.mem_map]
    refine ⟨ls[(i : ℕ)], List.getElem_mem hi, ?_⟩
    cases hf : Svec.find ls[(i : ℕ)] ((j : ℤ) + 1) with
    | none => rw [hf] at hv; exact absurd hv.symm hij
    | some x =>
      rw [hf] at hv
      exact ⟨_, Svec.mem_of_find _ _ _ hf, hv⟩

theorem foldl_max (l : List ℤ) : ∀ a : ℤ, (a ≤ l.foldl (fun a x => max a |x|) a) ∧ (∀ x ∈ l, |x| ≤ l.foldl (fun a x => max a |x|) a) ∧
    ∀ b, a ≤ b → (∀ x ∈ l, |x| ≤ b) → l.foldl (fun a x => max a |x|) a ≤ b := by
  induction l with
  | nil => intro a; simp
  | cons y l ih =>
    intro a
    obtain ⟨h1, h2, h3⟩ := ih (max a |y|)
    refine ⟨le_trans (le_max_left _ _) h1, fun x hx => ?_, fun b hb h => h3 b (max_le hb (h y (by simp))) fun x hx => h x (by simp [hx])⟩
    rcases List.mem_cons.1 hx with rfl | hx
    · exact le_trans (le_max_right _ _) h1
    · exact h2 x hx

variable {q : ℕ} [hq : Fact q.Prime] {t : T}

theorem denoms_spec (ht : t ≠ .big) (l : List ℤ) : ∀ dd : ℤ, 0 < dd → ¬(q : ℤ) ∣ dd → ∃ ok dd', denoms t q dd l = some (ok, dd') ∧
    (ok = true → 0 < dd' ∧ ¬(q : ℤ) ∣ dd' ∧ dd ∣ dd' ∧ (∀ v ∈ l, ∃ x y, IsCoprime x y ∧ Small q v x y ∧ y ∣ dd') ∧
      ∀ D, dd ∣ D → (∀ v ∈ l, ∀ x y, IsCoprime x y → Small q v x y → y ∣ D) → dd' ∣ D) ∧
    (ok = false → ∃ v ∈ l, ∀ x y, ¬Small q v x y) := by
  have hpr : Prime (q : ℤ) := Nat.prime_iff_prime_int.1 hq.out
  have hq2 : (2 : ℤ) ≤ q := by exact_mod_cast hq.out.two_le
  induction l with
  | nil => exact fun dd h1 h2 => ⟨true, dd, rfl, fun _ => ⟨h1, h2, dvd_rfl, by simp, fun D h _ => h⟩, by simp⟩
  | cons v l ih =>
    intro dd hdd hqd
    by_cases hv : |v| < lim q
    · obtain ⟨ok, dd', e, h1, h2⟩ := ih dd hdd hqd
      refine ⟨ok, dd', by unfold denoms; rw [if_pos hv, e], fun hok => ?_, fun hok => ?_⟩
      · obtain ⟨k1, k2, k3, k4, k5⟩ := h1 hok
        refine ⟨k1, k2, k3, fun w hw => ?_, fun D hD h => k5 D hD fun w hw => h w (by simp [hw])⟩
        rcases List.mem_cons.1 hw with rfl | hw
        · exact ⟨w, 1, isCoprime_one_right, ⟨by norm_num, lim_lt hv, by linarith, by rw [mul_one]; exact Svec.Props.cong_refl _ _⟩, one_dvd _⟩
        · exact k4 w hw
      · obtain ⟨w, hw, h⟩ := h2 hok
        exact ⟨w, by simp [hw], h⟩
    · obtain ⟨a, b, ok1, e1, hab, hb0, hbq, hcop, hok1⟩ := modrat_spec hq.out v
      have hb : (0 : ℤ) < |b| := abs_pos.2 hb0
      -- the fraction with positive denominator
      have hsm : ok1 = true → ∃ x, IsCoprime x |b| ∧ Small q v x |b| := by
        intro hok
        obtain ⟨s1, s2⟩ := hok1.1 hok
        rcases abs_choice b with hb' | hb'
        · rw [hb']
          exact ⟨a, hcop, by rw [← hb']; exact hb, s1, s2, hab⟩
        · rw [hb']
          refine ⟨-a, hcop.neg_neg, by rw [← hb']; exact hb, by rw [neg_sq]; exact s1, by rw [neg_sq]; exact s2, ?_⟩
          obtain ⟨k, hk⟩ := hab
          exact ⟨-k, by linear_combination -hk⟩
      cases ok1 with
      | true =>
        obtain ⟨x, hx1, hx2⟩ := hsm rfl
        have hlcm : slcm t |b| dd = Int.lcm |b| dd := slcm_eq t hb hdd
        have hpos : 0 < slcm t |b| dd := slcm_pos t hb hdd
        have hnd : ¬(q : ℤ) ∣ slcm t |b| dd := by
          intro h
          have : (q : ℤ) ∣ |b| * dd := h.trans (by rw [hlcm]; exact Int.coe_lcm_dvd (Dvd.intro _ rfl) (Dvd.intro_left _ rfl))
          rcases hpr.dvd_or_dvd this with h | h
          · have := Int.le_of_dvd hb h
            omega
          · exact hqd h
        obtain ⟨ok, dd', e, h1, h2⟩ := ih _ hpos hnd
        refine ⟨ok, dd', ?_, fun hok => ?_, fun hok => ?_⟩
        · unfold denoms
          rw [if_neg hv, smodrat_eq ht, e1, Option.bind_some]
          simp only [if_true]
          exact e
        · obtain ⟨k1, k2, k3, k4, k5⟩ := h1 hok
          have d1 : |b| ∣ slcm t |b| dd := by rw [hlcm]; exact Int.dvd_lcm_left _ _
          have d2 : dd ∣ slcm t |b| dd := by rw [hlcm]; exact Int.dvd_lcm_right _ _
          refine ⟨k1, k2, d2.trans k3, fun w hw => ?_, fun D hD h => k5 D ?_ fun w hw => h w (by simp [hw])⟩
          · rcases List.mem_cons.1 hw with rfl | hw
            · exact ⟨x, |b|, hx1, hx2, d1.trans k3⟩
            · exact k4 w hw
          · rw [hlcm]
            exact Int.coe_lcm_dvd (h v (by simp) x |b| hx1 hx2) hD
        · obtain ⟨w, hw, h⟩ := h2 hok
          exact ⟨w, by simp [hw], h⟩
      | false =>
        refine ⟨false, slcm t |b| dd, ?_, by simp, fun _ => ⟨v, by simp, fun x y hs => ?_⟩⟩
        · unfold denoms
          rw [if_neg hv, smodrat_eq ht, e1, Option.bind_some]
          rfl
        · obtain ⟨s1, s2, s3, s4⟩ := hs
          obtain ⟨a', b', e2, -⟩ := C09_modrat_complete v q (by omega) x y s1.ne' s4 s2 s3
          rw [e1] at e2
          simp at e2

/-- **C83.**  `liftmat` for sparse matrices with `int` or `long` scalars, modulo a prime `q`.  If it returns 1 then
the entries of `m` are the least residues of `dd` times those of the matrix given, every entry is congruent to
a fraction with numerator and denominator at most `√(q/2)`, and `dd` is the least common multiple of the
denominators of these (and not divisible by `q`).  If it returns 0 then some entry is not congruent to such a fraction.
For `int` scalars modulo the large prime for which multiplication is done without division, the product is
correct only if `dd` is reduced. -/
theorem C83_liftmat (ht : t ≠ .big) {mm : SM} {A : Matrix (Fin r) (Fin c) ℤ} (hA : Rep z mm A) :
    ∃ ok m dd, liftmat t mm q = some (ok, m, dd) ∧
      (ok = true → 0 < dd ∧ ¬(q : ℤ) ∣ dd ∧
        (Red t q dd → ∃ B : Matrix (Fin r) (Fin c) ℤ, Rep True m B ∧ ∀ i j, Spec.Cong q (B i j) (dd * A i j) ∧ Least q (B i j)) ∧
        (∀ i j, ∃ x y, IsCoprime x y ∧ Small q (A i j) x y ∧ y ∣ dd) ∧
        ∀ D, (∀ i j x y, IsCoprime x y → Small q (A i j) x y → y ∣ D) → dd ∣ D) ∧
      (ok = false → ∃ i j, ∀ x y, ¬Small q (A i j) x y) := by
  have hpr : Prime (q : ℤ) := Nat.prime_iff_prime_int.1 hq.out
  have hq2 : (2 : ℤ) ≤ q := by exact_mod_cast hq.out.two_le
  have hq0 : (q : ℤ) ≠ 0 := by omega
  obtain ⟨m, B, e1, hB, hBA⟩ := Smat.Props.C47_reduceModP t hA (q : ℤ) hq0
  have small_congr : ∀ {v w x y : ℤ}, Spec.Cong q v w → Small q v x y → Small q w x y := by
    rintro v w x y hvw ⟨s1, s2, s3, s4⟩
    refine ⟨s1, s2, s3, Svec.Props.cong_trans s4 ?_⟩
    obtain ⟨k, hk⟩ := hvw
    exact ⟨k * y, by linear_combination y * hk⟩
  have csymm : ∀ {v w : ℤ}, Spec.Cong q v w → Spec.Cong q w v := by
    intro v w h
    have := h.neg_right
    unfold Spec.Cong
    rwa [neg_sub] at this
  have ne1 : ¬(q : ℤ) ∣ 1 := fun h => by have := Int.le_of_dvd one_pos h; omega
  obtain ⟨l, e2, hl1, hl2⟩ := vals_spec hB
  have e3 : smaxabs m = some (l.foldl (fun a x => max a |x|) 0) := by unfold smaxabs; rw [e2, Option.map_some]
  obtain ⟨-, hmax, -⟩ := foldl_max l 0
  by_cases hma : l.foldl (fun a x => max a |x|) 0 < lim q
  · refine ⟨true, m, 1, ?_, fun _ => ⟨one_pos, ne1, fun _ => ⟨B, hB, fun i j => ?_⟩, fun i j => ?_, fun D _ => one_dvd _⟩, by simp⟩
    · unfold liftmat
      rw [e1, Option.bind_some, e3, Option.bind_some, if_pos hma]
    · rw [one_mul]; exact hBA i j
    · refine ⟨B i j, 1, isCoprime_one_right, small_congr (hBA i j).1 ⟨one_pos, lim_lt ?_, by linarith, by rw [mul_one]; exact Svec.Props.cong_refl _ _⟩, one_dvd _⟩
      by_cases h0 : B i j = 0
      · rw [h0, abs_zero]
        have := (foldl_max l 0).1
        omega
      · exact lt_of_le_of_lt (hmax _ (hl2 i j h0)) hma
  · obtain ⟨ok, dd, e4, h1, h2⟩ := denoms_spec (q := q) ht l 1 one_pos ne1
    cases ok with
    | false =>
      refine ⟨false, m, dd, ?_, by simp, fun _ => ?_⟩
      · unfold liftmat
        rw [e1, Option.bind_some, e3, Option.bind_some, if_neg hma, e2, Option.bind_some, e4, Option.bind_some]
        rfl
      · obtain ⟨v, hv, h⟩ := h2 rfl
        obtain ⟨i, j, rfl⟩ := hl1 v hv
        exact ⟨i, j, fun x y hs => h x y (small_congr (csymm (hBA i j).1) hs)⟩
    | true =>
      obtain ⟨k1, k2, -, k4, k5⟩ := h1 rfl
      have hfz : Red t q dd → ∀ x : ℤ, |x| < q → Spec.Cong q (smod t (sxmodmul t dd x q) q) (dd * x) ∧
          Least q (smod t (sxmodmul t dd x q) q) := by
        intro hr x hx
        have s := Svec.Props.smod_spec t (sxmodmul t dd x q) q hq0
        exact ⟨Svec.Props.cong_trans s.1 (Svec.Props.sxmodmul_cong t dd x q hr (Elim.red_of_abs hx)), s.2⟩
      have hBabs : ∀ i j, |B i j| < q := fun i j => Elim.least_abs (hBA i j).2
      obtain ⟨m', e5, h5⟩ := Smat.Props.mapVals_spec (z' := Red t q dd) (fun x => smod t (sxmodmul t dd x q) q)
        (B := Matrix.of fun i (j : Fin c) => match m.readRow i with
          | some l => ((Svec.find l (j + 1 : Int)).map fun x => smod t (sxmodmul t dd x q) q).getD 0
          | none => 0) hB (by
        intro i l e hl
        refine ⟨Svec.Props.wf_map ⟨c, l⟩ (fun x => smod t (sxmodmul t dd x q) q) hl.wf, fun j => ?_, fun hr f hf => ?_⟩
        · rw [Matrix.of_apply, e]
          unfold Svec.elem
          exact congrArg (·.getD 0) (Svec.Props.find_map l (fun x => smod t (sxmodmul t dd x q) q) _)
        · obtain ⟨g, hg, rfl⟩ := List.mem_map.1 hf
          obtain ⟨j, -, hj⟩ := Elim.Is.mem hl hg
          have hne : g.2 ≠ 0 := hl.nz trivial g hg
          simp only
          intro h0
          have hc := (hfz hr g.2 (by rw [hj]; exact hBabs i j)).1
          rw [h0] at hc
          unfold Spec.Cong at hc
          rw [zero_sub, dvd_neg] at hc
          rcases hpr.dvd_or_dvd hc with h | h
          · exact k2 h
          · have h6 := hBabs i j
            rw [← hj] at h6
            exact hne (Int.eq_zero_of_abs_lt_dvd h h6))
      refine ⟨true, m', dd, ?_, fun _ => ⟨k1, k2, fun hr => ⟨_, (eq_true hr) ▸ h5, fun i j => ?_⟩, fun i j => ?_, fun D h => ?_⟩, by simp⟩
      · unfold liftmat
        rw [e1, Option.bind_some, e3, Option.bind_some, if_neg hma, e2, Option.bind_some, e4, Option.bind_some]
        simp only [if_true, abs_of_pos k1]
        rw [e5, Option.map_some]
      · obtain ⟨l', e6, hl'⟩ := hB.row i
        rw [Matrix.of_apply, e6]
        simp only
        have hv := hl'.val j
        unfold Svec.elem at hv
        simp only at hv
        have hcA : Spec.Cong q (dd * B i j) (dd * A i j) := by
          have := (hBA i j).1.mul_left dd
          unfold Spec.Cong
          rwa [← mul_sub]
        cases hf : Svec.find l' ((j : ℤ) + 1) with
        | none =>
          rw [hf] at hv
          simp only [Option.getD_none] at hv
          rw [← hv, mul_zero] at hcA
          simp only [Option.map_none, Option.getD_none]
          exact ⟨hcA, by unfold Least; rw [abs_of_nonneg (by omega)]; omega⟩
        | some x =>
          rw [hf] at hv
          simp only [Option.getD_some] at hv
          simp only [Option.map_some, Option.getD_some]
          obtain ⟨f1, f2⟩ := hfz hr x (by rw [hv]; exact hBabs i j)
          rw [hv] at f1 f2 ⊢
          exact ⟨Svec.Props.cong_trans f1 hcA, f2⟩
      · by_cases h0 : B i j = 0
        · have hc := (hBA i j).1
          rw [h0] at hc
          refine ⟨0, 1, isCoprime_one_right, ⟨one_pos, by simp, by linarith, by rw [mul_one]; exact hc⟩, one_dvd _⟩
        · obtain ⟨x, y, s1, s2, s3⟩ := k4 _ (hl2 i j h0)
          exact ⟨x, y, s1, small_congr (hBA i j).1 s2, s3⟩
      · refine k5 D (one_dvd _) fun v hv x y s1 s2 => ?_
        obtain ⟨i, j, rfl⟩ := hl1 v hv
        exact h i j x y s1 (small_congr (hBA i j).1 s2)

theorem small_unique {v x y x' y' : ℤ} (hq3 : 2 < q) (h : Small q v x y) (h' : Small q v x' y') : x * y' = x' * y := by
  obtain ⟨a1, a2, a3, k, a4⟩ := h
  obtain ⟨b1, b2, b3, l, b4⟩ := h'
  have hd : (q : ℤ) ∣ x * y' - x' * y := ⟨k * y' - l * y, by linear_combination y' * a4 - y * b4⟩
  have hodd : (q : ℤ) % 2 = 1 := by
    rcases hq.out.eq_two_or_odd with h | h
    · omega
    · omega
  have s1 : 2 * x ^ 2 < q := by omega
  have s2 : 2 * y ^ 2 < q := by omega
  have s3 : 2 * x' ^ 2 < q := by omega
  have s4 : 2 * y' ^ 2 < q := by omega
  have hab : |x * y' - x' * y| < q := by
    rw [abs_lt]
    constructor <;> nlinarith [sq_nonneg (x + y'), sq_nonneg (x - y'), sq_nonneg (x' + y), sq_nonneg (x' - y)]
  have := Int.eq_zero_of_abs_lt_dvd hd hab
  omega

/-- **C83.**  Conversely, if the matrix is congruent modulo an odd prime `q` to `(1/D)Z` with `D` and the entries of `Z`
at most `√(q/2)` in absolute value then `liftmat` returns 1 with a matrix and denominator giving exactly the
same rational matrix `(1/D)Z`, in lowest terms. -/
theorem C83_liftmat_complete (ht : t ≠ .big) (hq3 : 2 < q) {mm : SM} {A Z : Matrix (Fin r) (Fin c) ℤ} (hA : Rep z mm A) {D : ℤ}
    (hD : 0 < D) (hD2 : 2 * D ^ 2 ≤ q) (hZ2 : ∀ i j, 2 * Z i j ^ 2 ≤ q) (hZ : ∀ i j, Spec.Cong q (Z i j) (A i j * D)) :
    ∃ m dd, ∃ B : Matrix (Fin r) (Fin c) ℤ, liftmat t mm q = some (true, m, dd) ∧ Rep True m B ∧ 0 < dd ∧ dd ∣ D ∧
      (∀ i j, D * B i j = dd * Z i j) ∧ ∀ e, e ∣ dd → (∀ i j, e ∣ B i j) → IsUnit e := by
  have hS : ∀ i j, Small q (A i j) (Z i j) D := fun i j => ⟨hD, hZ2 i j, hD2, hZ i j⟩
  obtain ⟨ok, m, dd, e, h1, h2⟩ := C83_liftmat (q := q) ht hA
  have hok : ok = true := by
    by_contra h
    obtain ⟨i, j, hn⟩ := h2 (by simpa using h)
    exact hn _ _ (hS i j)
  subst hok
  obtain ⟨k1, k2, k3, k4, k5⟩ := h1 rfl
  have hdvd : dd ∣ D := by
    refine k5 D fun i j x y hc hs => ?_
    have := small_unique hq3 hs (hS i j)
    exact hc.symm.dvd_of_dvd_mul_left ⟨Z i j, by linear_combination this⟩
  have hle : dd ≤ D := Int.le_of_dvd hD hdvd
  have hDq : D < q := by nlinarith
  obtain ⟨B, hB, hBA⟩ := k3 (Elim.red_of_abs (by rw [abs_of_pos k1]; omega))
  have key : ∀ i j, ∃ x y k, IsCoprime x y ∧ dd = y * k ∧ B i j = k * x ∧ x * D = Z i j * y ∧ 0 < y := by
    intro i j
    obtain ⟨x, y, hc, hs, k, hk⟩ := k4 i j
    have hu := small_unique hq3 hs (hS i j)
    refine ⟨x, y, k, hc, hk, ?_, hu, hs.1⟩
    obtain ⟨a, ha⟩ := (hBA i j).1
    obtain ⟨b, hb⟩ := hs.2.2.2
    have hd : (q : ℤ) ∣ B i j - k * x := ⟨a - k * b, by linear_combination ha - k * hb + A i j * hk⟩
    -- the size of k x
    have hkx : D * (k * x) = dd * Z i j := by linear_combination k * hu - Z i j * hk
    have hkx2 : 2 * (k * x) ^ 2 ≤ q := by
      have e1 : D ^ 2 * (k * x) ^ 2 = dd ^ 2 * Z i j ^ 2 := by rw [← mul_pow, hkx, mul_pow]
      have e2 : dd ^ 2 ≤ D ^ 2 := by nlinarith
      have e3 : D ^ 2 * (k * x) ^ 2 ≤ D ^ 2 * Z i j ^ 2 := by
        rw [e1]; exact mul_le_mul_of_nonneg_right e2 (sq_nonneg _)
      have e4 := le_of_mul_le_mul_left e3 (by positivity)
      linarith [hZ2 i j]
    have hl := (hBA i j).2
    unfold Least at hl
    rw [abs_of_nonneg (by omega : (0 : ℤ) ≤ q)] at hl
    have hlt : |k * x| * 2 < q := by
      by_contra h
      push Not at h
      have h3 : 2 * |k * x| ^ 2 ≤ q := by rw [sq_abs]; exact hkx2
      have h0 := abs_nonneg (k * x)
      have : (3 : ℤ) ≤ q := by omega
      have h4 : |k * x| ≤ 1 := by nlinarith
      have : (q : ℤ) ≤ 2 := by omega
      omega
    have hab : |B i j - k * x| < q := by
      rw [abs_lt]
      have := abs_le.1 (le_refl |k * x|)
      constructor <;> omega
    have := Int.eq_zero_of_abs_lt_dvd hd hab
    omega
  refine ⟨m, dd, B, e, hB, k1, hdvd, fun i j => ?_, fun e he hBe => ?_⟩
  · obtain ⟨x, y, k, -, hk, hBk, hu, -⟩ := key i j
    rw [hBk, hk]
    linear_combination k * hu
  · -- dd / e is also a common denominator
    obtain ⟨f, hf⟩ := he
    have he0 : e ≠ 0 := by rintro rfl; rw [zero_mul] at hf; omega
    have hdf : dd ∣ f := by
      refine k5 f fun i j x y hc hs => ?_
      obtain ⟨x', y', k, hc', hk, hBk, hu, hy'⟩ := key i j
      have hu' := small_unique hq3 hs (hS i j)
      have hxy : x * y' = x' * y := by
        have : D * (x * y') = D * (x' * y) := by linear_combination y' * hu' - y * hu
        exact mul_left_cancel₀ hD.ne' this
      have hyy : y ∣ y' := hc.symm.dvd_of_dvd_mul_left ⟨x', by linear_combination hxy⟩
      refine hyy.trans ?_
      obtain ⟨g, hg⟩ := hBe i j
      -- e f = y' k, e g = k x'
      have h1 : e * (x' * f) = e * (y' * g) := by linear_combination -x' * hf + y' * hg + x' * hk - y' * hBk
      have h2 := mul_left_cancel₀ he0 h1
      exact hc'.symm.dvd_of_dvd_mul_left ⟨g, h2⟩
    obtain ⟨w, hw⟩ := hdf
    have hf0 : f ≠ 0 := by rintro rfl; rw [mul_zero] at hf; omega
    have : f * (e * w) = f * 1 := by rw [mul_one]; conv_rhs => rw [hw, hf]; 
                                     ring
    exact IsUnit.of_mul_eq_one w (mul_left_cancel₀ hf0 this)

end sparse

/-! ### examples -/

/-- the matrix `(1, 1/2; 2/3, 0)` modulo 101 -/
def exA : Matrix (Fin 2) (Fin 2) ℤ := !![1, 51; 68, 0]

/-- the sparse matrix -/
def exSM : SM := ⟨2, [⟨[some 2, some 1, some 2], [some 1, some 51]⟩, ⟨[some 1, some 1], [some 68]⟩]⟩

theorem exSM_rep : Rep True exSM exA := by
  refine ⟨rfl, rfl, fun i => ?_⟩
  fin_cases i
  · exact ⟨[(1, 1), (2, 51)], rfl, ⟨by simp [Svec.Sorted], by decide⟩, by decide, by decide⟩
  · exact ⟨[(1, 68)], rfl, ⟨by simp [Svec.Sorted], by decide⟩, by decide, by decide⟩

example : ∃ m dd, ∃ B : Matrix (Fin 2) (Fin 2) ℤ, liftmat .long exSM (101 : ℕ) = some (true, m, dd) ∧ Rep True m B ∧ 0 < dd ∧ dd ∣ 6 ∧
    (∀ i j, 6 * B i j = dd * (!![6, 3; 4, 0] : Matrix (Fin 2) (Fin 2) ℤ) i j) ∧ ∀ e, e ∣ dd → (∀ i j, e ∣ B i j) → IsUnit e := by
  have : Fact (Nat.Prime 101) := ⟨by norm_num⟩
  exact C83_liftmat_complete (q := 101) (by decide) (by decide) exSM_rep (by decide) (by decide) (by decide +kernel)
    (fun i j => by unfold Spec.Cong; fin_cases i <;> fin_cases j <;> decide)

end Eclib.Lift
