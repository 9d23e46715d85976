import Verif.Lift.Props
import Verif.Elim.RowProps

/-!
# C84–C86: lifting dense matrices, subspaces and vectors, and lifting from two primes
-/

set_option linter.unusedSectionVars false

namespace Eclib.Lift

open Svec (T smod sxmodmul sdiv sgcd)
open Mat (smodrat sinvmod)
open Svec.Props (Red)
open Smat.Props (Least)

/-! ### vectors -/

section vec

variable {q : ℕ} [hq : Fact q.Prime] {t : T}

theorem vmaxabs_le {l : List ℤ} {b : ℤ} (h : vmaxabs l ≤ b) : ∀ x ∈ l, |x| ≤ b :=
  fun x hx => ((foldl_max l 0).2.1 x hx).trans h

theorem le_vmaxabs {l : List ℤ} {b : ℤ} (hb : 0 ≤ b) (h : ∀ x ∈ l, |x| ≤ b) : vmaxabs l ≤ b := (foldl_max l 0).2.2 b hb h

/-- reduced entries -/
def RedL (q : ℕ) (l : List ℤ) : Prop := ∀ x ∈ l, Least q x

theorem RedL.abs {l : List ℤ} (h : RedL q l) {x : ℤ} (hx : x ∈ l) : |x| < q := Elim.least_abs (h x hx)

theorem scale_red (c : ℤ) (l : List ℤ) : RedL q (scale t q c l) := by
  intro x hx
  obtain ⟨y, -, rfl⟩ := List.mem_map.1 hx
  exact (Svec.Props.smod_spec t _ q (by exact_mod_cast hq.out.ne_zero)).2

theorem scale_cong {c : ℤ} (hc : |c| < q) {l : List ℤ} (hl : RedL q l) :
    List.Forall₂ (fun a' a => Spec.Cong q a' (c * a)) (scale t q c l) l := by
  unfold scale
  induction l with
  | nil => exact List.Forall₂.nil
  | cons x l ih =>
    refine List.Forall₂.cons ?_ (ih fun y hy => hl y (by simp [hy]))
    exact Svec.Props.cong_trans (Svec.Props.smod_spec t _ q (by exact_mod_cast hq.out.ne_zero)).1
      (Svec.Props.sxmodmul_cong t c x q (Elim.red_of_abs hc) (Elim.red_of_abs (hl.abs (by simp))))

/-- `l` is congruent to a multiple of `v` by a unit -/
def Mult (q : ℕ) (l v : List ℤ) : Prop := ∃ c : ℤ, ¬(q : ℤ) ∣ c ∧ List.Forall₂ (fun a x => Spec.Cong q a (c * x)) l v

theorem forall₂_trans {R S U : ℤ → ℤ → Prop} (h : ∀ a b c, R a b → S b c → U a c) {l m n : List ℤ}
    (h1 : List.Forall₂ R l m) (h2 : List.Forall₂ S m n) : List.Forall₂ U l n := by
  induction h1 generalizing n with
  | nil => cases h2; exact List.Forall₂.nil
  | cons hr _ ih => cases h2 with | cons hs h2 => exact List.Forall₂.cons (h _ _ _ hr hs) (ih h2)

theorem Mult.scale {l v : List ℤ} (h : Mult q l v) {c : ℤ} (hc : |c| < q) (hc0 : c ≠ 0) (hl : RedL q l) :
    Mult q (scale t q c l) v := by
  obtain ⟨e, he, h⟩ := h
  refine ⟨c * e, fun hd => ?_, forall₂_trans ?_ (scale_cong hc hl) h⟩
  · rcases (Nat.prime_iff_prime_int.1 hq.out).dvd_or_dvd hd with h1 | h1
    · exact hc0 (Int.eq_zero_of_abs_lt_dvd h1 hc)
    · exact he h1
  · rintro a b d ⟨k, hk⟩ ⟨m, hm⟩
    exact ⟨k + c * m, by linear_combination hk + c * hm⟩

theorem Mult.neg {l v : List ℤ} (h : Mult q l v) : Mult q (l.map (- ·)) v := by
  obtain ⟨e, he, h⟩ := h
  refine ⟨-e, by rwa [dvd_neg], ?_⟩
  rw [List.forall₂_map_left_iff]
  refine h.imp ?_
  rintro a b ⟨k, hk⟩
  exact ⟨-k, by linear_combination -hk⟩

theorem normalize_spec (f : Bool) {ans : List ℤ} (hne : ∃ x ∈ ans, x ≠ 0) :
    ∃ r, normalize f ans = some (f, r) ∧ (r = ans ∨ r = ans.map (- ·)) ∧ ∃ x, r.find? (· ≠ 0) = some x ∧ 0 < x := by
  obtain ⟨x, hx, hx0⟩ := hne
  have h0 : ans ≠ [] := by rintro rfl; simp at hx
  have hs : ∃ y, ans.find? (· ≠ 0) = some y := by
    rw [← Option.isSome_iff_exists, List.find?_isSome]
    exact ⟨x, hx, by simpa using hx0⟩
  obtain ⟨y, hy⟩ := hs
  have hy0 : y ≠ 0 := by simpa using List.find?_some hy
  unfold normalize
  rw [if_neg h0, hy, Option.map_some]
  refine ⟨_, rfl, ?_⟩
  by_cases hlt : y < 0
  · rw [if_pos hlt]
    refine ⟨.inr rfl, -y, ?_, by omega⟩
    rw [List.find?_map]
    have : ((fun x : ℤ => decide (x ≠ 0)) ∘ fun x => -x) = fun x : ℤ => decide (x ≠ 0) := by
      funext x; simp
    rw [this, hy, Option.map_some]
  · rw [if_neg hlt]
    exact ⟨.inl rfl, y, hy, by omega⟩

/-- what a successful outcome satisfies -/
def Good (q : ℕ) (v ans : List ℤ) : Prop :=
  Mult q ans v ∧ (∀ x ∈ ans, |x| ≤ 10 * (lim q - 1)) ∧ ∃ x, ans.find? (· ≠ 0) = some x ∧ 0 < x

theorem lim_pos : 0 < lim q := by
  have := hq.out.two_le
  unfold lim
  have h : 1 ≤ Nat.sqrt ((q : ℤ) / 2).toNat := Nat.le_sqrt.2 (by omega)
  omega

theorem good_normalize {v ans : List ℤ} (hm : Mult q ans v) (hne : ∃ x ∈ ans, x ≠ 0) (hb : vmaxabs ans ≤ 10 * (lim q - 1)) :
    ∃ r, normalize true ans = some (true, r) ∧ Good q v r := by
  obtain ⟨r, e, h, hpos⟩ := normalize_spec true hne
  refine ⟨r, e, ?_, ?_, hpos⟩
  · rcases h with rfl | rfl
    · exact hm
    · exact hm.neg
  · intro x hx
    rcases h with rfl | rfl
    · exact vmaxabs_le hb x hx
    · obtain ⟨y, hy, rfl⟩ := List.mem_map.1 hx
      rw [abs_neg]
      exact vmaxabs_le hb y hy

theorem exists_ne_zero {l v : List ℤ} (h : Mult q l v) (hv : ∃ x ∈ v, ¬(q : ℤ) ∣ x) : ∃ x ∈ l, x ≠ 0 := by
  obtain ⟨c, hc, h⟩ := h
  obtain ⟨x, hx, hxq⟩ := hv
  induction h with
  | nil => simp at hx
  | @cons a b l v hab hl ih =>
    rcases List.mem_cons.1 hx with rfl | hx
    · refine ⟨a, by simp, ?_⟩
      rintro rfl
      unfold Spec.Cong at hab
      rw [zero_sub, dvd_neg] at hab
      rcases (Nat.prime_iff_prime_int.1 hq.out).dvd_or_dvd hab with h1 | h1
      · exact hc h1
      · exact hxq h1
    · obtain ⟨y, hy, hy0⟩ := ih hx
      exact ⟨y, by simp [hy], hy0⟩

/-- the loop over `i`: it is always defined, and either returns a good vector or the last maximum is too large -/
theorem innerLoop_spec (ht : t ≠ .big) {v : List ℤ} (hv : ∃ x ∈ v, ¬(q : ℤ) ∣ x) : ∀ (idx : List ℕ) (ans : List ℤ) (mv : ℤ),
    RedL q ans → Mult q ans v → (∀ i ∈ idx, i < ans.length) → 10 * (lim q - 1) < mv →
    (∃ r, innerLoop (smodrat t · q) t q (10 * (lim q - 1)) idx (ans, mv) = some (.inl (true, r)) ∧ Good q v r) ∨
      ∃ ans' mv', innerLoop (smodrat t · q) t q (10 * (lim q - 1)) idx (ans, mv) = some (.inr (ans', mv')) ∧ RedL q ans' ∧ Mult q ans' v ∧
        10 * (lim q - 1) < mv' := by
  intro idx
  induction idx with
  | nil => exact fun ans mv h1 h2 _ h3 => .inr ⟨ans, mv, rfl, h1, h2, h3⟩
  | cons i idx ih =>
    intro ans mv h1 h2 h3 h4
    have hi := h3 i (by simp)
    obtain ⟨a, b, ok, e, -, hb0, hbq, -, -⟩ := modrat_spec hq.out ans[i]
    unfold innerLoop
    simp only [List.getElem?_eq_getElem hi, Option.bind_some, (smodrat_eq ht _ _).trans e]
    by_cases hb1 : |b| = 1
    · rw [if_pos hb1]
      exact ih ans mv h1 h2 (fun j hj => h3 j (by simp [hj])) h4
    · rw [if_neg hb1]
      have hm : Mult q (scale t q |b| ans) v := h2.scale (by rwa [abs_abs]) (abs_ne_zero.2 hb0) h1
      by_cases hle : vmaxabs (scale t q |b| ans) ≤ 10 * (lim q - 1)
      · rw [if_pos hle]
        obtain ⟨r, er, hr⟩ := good_normalize hm (exists_ne_zero hm hv) hle
        exact .inl ⟨r, by rw [er, Option.map_some], hr⟩
      · rw [if_neg hle]
        refine ih _ _ (scale_red _ _) hm (fun j hj => ?_) (by omega)
        have := h3 j (by simp [hj])
        unfold scale
        rwa [List.length_map]

theorem Mult.length {l v : List ℤ} (h : Mult q l v) : l.length = v.length := by
  obtain ⟨c, -, h⟩ := h
  exact h.length_eq

/-- the inverse of a reduced non-zero entry -/
theorem inv_ok (X : Marith.XGcd) (ht : t ≠ .big) {x : ℤ} (hx : |x| < q) (hx0 : x ≠ 0) :
    |sinvmod X t x q| < q ∧ sinvmod X t x q ≠ 0 ∧ (q : ℤ) ∣ x * sinvmod X t x q - 1 := by
  have hc : ((x : ℤ) : ZMod q) ≠ 0 := by
    rw [Ne, ZMod.intCast_zmod_eq_zero_iff_dvd]
    exact fun h => hx0 (Int.eq_zero_of_abs_lt_dvd h hx)
  have h1 := Mat.sinvmod_cast X t hc
  refine ⟨?_, ?_, ?_⟩
  · cases t
    · exact Elim.invmod_lt hc hx
    · exact Elim.invmod_lt hc hx
    · exact absurd rfl ht
  · intro h
    rw [h] at h1
    simp at h1
  · rw [← ZMod.intCast_zmod_eq_zero_iff_dvd]
    push_cast
    rw [h1, sub_self]

theorem last_ne_zero {l v : List ℤ} (h : Mult q l v) (hv : ∀ x, v.getLast? = some x → ¬(q : ℤ) ∣ x) (i0 : ℕ) (hi : i0 < l.length) :
    ∃ k, (l.drop i0).findIdx? (· ≠ 0) = some k := by
  have hlen := h.length
  obtain ⟨c, hc, h⟩ := h
  have hv0 : v ≠ [] := by rintro rfl; rw [List.length_nil] at hlen; omega
  have hl0 : l ≠ [] := by rintro rfl; simp at hi
  have hlast : l.getLast hl0 ≠ 0 := by
    intro h0
    have h1 := List.forall₂_iff_get.1 h
    have h2 := h1.2 (l.length - 1) (by omega) (by omega)
    simp only [List.get_eq_getElem] at h2
    rw [List.getLast_eq_getElem] at h0
    rw [h0] at h2
    have h3 := hv v[l.length - 1] (by
      have h5 : v[v.length - 1]? = v[l.length - 1]? := by rw [hlen]
      rw [List.getLast?_eq_getElem?, h5, List.getElem?_eq_getElem])
    unfold Spec.Cong at h2
    rw [zero_sub, dvd_neg] at h2
    rcases (Nat.prime_iff_prime_int.1 hq.out).dvd_or_dvd h2 with h4 | h4
    · exact hc h4
    · exact h3 h4
  have : ((l.drop i0).findIdx? (· ≠ 0)).isSome := by
    rw [List.findIdx?_isSome, List.any_eq_true]
    refine ⟨l.getLast hl0, ?_, by simpa using hlast⟩
    have : (l.drop i0).getLast (by simp; omega) = l.getLast hl0 := List.getLast_drop _
    rw [← this]
    exact List.getLast_mem _
  exact Option.isSome_iff_exists.1 this

theorem findIdx_get {l : List ℤ} {i0 k : ℕ} (h : (l.drop i0).findIdx? (· ≠ 0) = some k) :
    ∃ hk : i0 + k < l.length, l[i0 + k] ≠ 0 := by
  rw [List.findIdx?_eq_some_iff_getElem] at h
  obtain ⟨h1, h2, -⟩ := h
  rw [List.length_drop] at h1
  refine ⟨by omega, ?_⟩
  rw [List.getElem_drop] at h2
  simpa using h2

/-- the loop over `i0` -/
theorem outerLoop_spec (X : Marith.XGcd) (ht : t ≠ .big) {v : List ℤ} (hv : ∃ x ∈ v, ¬(q : ℤ) ∣ x) : ∀ (fuel i0 : ℕ) (ans : List ℤ) (mv : ℤ),
    RedL q ans → Mult q ans v → i0 ≤ v.length → v.length + 1 ≤ fuel + i0 → (i0 = 0 ∨ 10 * (lim q - 1) < mv) →
    (∀ r, outerLoop (smodrat t · q) X t q (10 * (lim q - 1)) (lim q - 1) fuel i0 (ans, mv) = some (true, r) → Good q v r) ∧
      ((∀ x, v.getLast? = some x → ¬(q : ℤ) ∣ x) → ∃ o, outerLoop (smodrat t · q) X t q (10 * (lim q - 1)) (lim q - 1) fuel i0 (ans, mv) = some o) := by
  have hlim := lim_pos (q := q)
  have hvl : 0 < v.length := by
    obtain ⟨x, hx, -⟩ := hv
    exact List.length_pos_of_mem hx
  intro fuel
  induction fuel with
  | zero => exact fun i0 ans mv _ _ h1 h2 _ => by omega
  | succ fuel ih =>
    intro i0 ans mv h1 h2 h3 h4 h5
    have hlen := h2.length
    unfold outerLoop
    simp only
    by_cases hl : ans.length ≤ i0
    · rw [if_pos hl]
      have hd : decide (mv ≤ lim q - 1) = false := by
        rw [decide_eq_false_iff_not]
        omega
      obtain ⟨r, er, -⟩ := normalize_spec false (exists_ne_zero h2 hv)
      rw [hd, er]
      exact ⟨fun r h => by simp at h, fun _ => ⟨_, rfl⟩⟩
    · rw [if_neg hl]
      cases hf : (ans.drop i0).findIdx? (· ≠ 0) with
      | none =>
        refine ⟨fun r h => by simp at h, fun hlast => ?_⟩
        obtain ⟨k, hk⟩ := last_ne_zero h2 hlast i0 (by omega)
        rw [hf] at hk
        simp at hk
      | some k =>
        obtain ⟨hk, hk0⟩ := findIdx_get hf
        simp only [Option.bind_some, List.getElem?_eq_getElem hk]
        obtain ⟨i1, i2, -⟩ := inv_ok (t := t) X ht (h1.abs (List.getElem_mem hk)) hk0
        have hm := h2.scale (t := t) i1 i2 h1
        have hr := scale_red (q := q) (t := t) (sinvmod X t ans[i0 + k] q) ans
        have hsl : (scale t q (sinvmod X t ans[i0 + k] q) ans).length = ans.length := by unfold scale; rw [List.length_map]
        generalize scale t q (sinvmod X t ans[i0 + k] q) ans = ans1 at hm hr hsl ⊢
        by_cases hle : max mv (vmaxabs ans1) ≤ 10 * (lim q - 1)
        · rw [if_pos hle]
          obtain ⟨r, er, hgood⟩ := good_normalize hm (exists_ne_zero hm hv) ((le_max_right _ _).trans hle)
          rw [er]
          refine ⟨fun r' h => ?_, fun _ => ⟨_, rfl⟩⟩
          simp only [Option.some.injEq, Prod.mk.injEq, true_and] at h
          rwa [← h]
        · rw [if_neg hle]
          rcases innerLoop_spec ht hv (List.range ans1.length) ans1 _ hr hm (fun i hi => List.mem_range.1 hi) (not_le.1 hle) with
            ⟨r, er, hgood⟩ | ⟨ans', mv', er, g1, g2, g3⟩
          · rw [er, Option.bind_some]
            refine ⟨fun r' h => ?_, fun _ => ⟨_, rfl⟩⟩
            simp only [Option.some.injEq, Prod.mk.injEq, true_and] at h
            rwa [← h]
          · rw [er, Option.bind_some]
            exact ih _ _ _ g1 g2 (by omega) (by omega) (.inr g3)

theorem reduce_mult (t : T) (v : List ℤ) : RedL q (v.map (smod t · q)) ∧ Mult q (v.map (smod t · q)) v := by
  have h0 : (q : ℤ) ≠ 0 := by exact_mod_cast hq.out.ne_zero
  refine ⟨fun x hx => ?_, 1, fun h => ?_, ?_⟩
  · obtain ⟨y, -, rfl⟩ := List.mem_map.1 hx
    exact (Svec.Props.smod_spec t y q h0).2
  · have := Int.le_of_dvd one_pos h
    have := hq.out.two_le
    omega
  · rw [List.forall₂_map_left_iff, List.forall₂_same]
    intro x _
    rw [one_mul]
    exact (Svec.Props.smod_spec t x q h0).1

/-- **C86.**  If `lift` returns 1 then `ans` is congruent to a multiple of `v` by a unit modulo the prime, and its entries are
at most `10 lim` in absolute value. -/
theorem C86_lift_sound (X : Marith.XGcd) (ht : t ≠ .big) {v r : List ℤ} (h : liftVec X t v q = some (true, r)) :
    Mult q r v ∧ ∀ x ∈ r, |x| ≤ 10 * (lim q - 1) := by
  obtain ⟨h1, h2⟩ := reduce_mult (q := q) t v
  unfold liftVec liftVecWith at h
  simp only at h
  by_cases hle : vmaxabs (v.map (smod t · q)) ≤ 10 * (lim q - 1)
  · rw [if_pos hle] at h
    simp only [Option.some.injEq, Prod.mk.injEq, true_and] at h
    rw [← h]
    exact ⟨h2, vmaxabs_le hle⟩
  · rw [if_neg hle] at h
    have hv : ∃ x ∈ v, ¬(q : ℤ) ∣ x := by
      by_contra hc
      push Not at hc
      refine hle (le_vmaxabs (by have := lim_pos (q := q); omega) fun x hx => ?_)
      obtain ⟨y, hy, rfl⟩ := List.mem_map.1 hx
      have h3 := (Svec.Props.smod_spec t y q (by exact_mod_cast hq.out.ne_zero)).1
      have h4 : (q : ℤ) ∣ smod t y q := by
        have := dvd_add h3 (hc y hy)
        rwa [sub_add_cancel] at this
      have h5 := Int.eq_zero_of_abs_lt_dvd h4 (h1.abs hx)
      rw [h5, abs_zero]
      have := lim_pos (q := q)
      omega
    have := (outerLoop_spec X ht hv (v.length + 1) 0 _ 0 h1 h2 (by omega) (by omega) (.inl rfl)).1 r h
    exact ⟨this.1, this.2.1⟩

/-- **C86.**  No access is out of range if the last entry of the vector is not 0 modulo the prime. -/
theorem C86_lift_defined (X : Marith.XGcd) (ht : t ≠ .big) {v : List ℤ} (hv : ∀ x, v.getLast? = some x → ¬(q : ℤ) ∣ x) :
    ∃ o, liftVec X t v q = some o := by
  obtain ⟨h1, h2⟩ := reduce_mult (q := q) t v
  unfold liftVec liftVecWith
  simp only
  by_cases hle : vmaxabs (v.map (smod t · q)) ≤ 10 * (lim q - 1)
  · rw [if_pos hle]
    exact ⟨_, rfl⟩
  · rw [if_neg hle]
    have hv' : ∃ x ∈ v, ¬(q : ℤ) ∣ x := by
      cases hl : v.getLast? with
      | none =>
        rw [List.getLast?_eq_none_iff] at hl
        subst hl
        exfalso
        apply hle
        have := lim_pos (q := q)
        change (0 : ℤ) ≤ _
        omega
      | some x => exact ⟨x, List.mem_of_getLast? hl, hv x hl⟩
    exact (outerLoop_spec X ht hv' (v.length + 1) 0 _ 0 h1 h2 (by omega) (by omega) (.inl rfl)).2 hv

/-! ### completeness -/

/-- `ans M ≡ w`, `M` a divisor of one of the entries -/
structure Frac (q : ℕ) (w : List ℤ) (ans : List ℤ) (M : ℤ) : Prop where
  rel : List.Forall₂ (fun a x => Spec.Cong q (a * M) x) ans w
  ne : M ≠ 0
  small : 2 * M ^ 2 ≤ q

theorem Frac.scale {w ans : List ℤ} {M c : ℤ} (h : Frac q w ans M) (hc : |c| < q) (hl : RedL q ans) {k : ℤ} (hk : M = c * k) :
    Frac q w (scale t q c ans) k := by
  have hk0 : k ≠ 0 := by rintro rfl; exact h.ne (by rw [hk, mul_zero])
  have hc0 : c ≠ 0 := by rintro rfl; exact h.ne (by rw [hk, zero_mul])
  refine ⟨forall₂_trans ?_ (scale_cong hc hl) h.rel, hk0, ?_⟩
  · rintro a b d ⟨m, hm⟩ ⟨n, hn⟩
    exact ⟨m * k + n, by linear_combination k * hm + hn - b * hk⟩
  · have : 1 ≤ c ^ 2 := by
      have : 0 < c ^ 2 := by positivity
      omega
    have h2 := h.small
    rw [hk, mul_pow] at h2
    nlinarith [sq_nonneg k]

/-- the entries of the vector when `M` divides them all -/
theorem Frac.bound {w ans : List ℤ} {M : ℤ} (hq3 : 2 < q) (h : Frac q w ans M) (hl : RedL q ans) (hw : ∀ x ∈ w, 2 * x ^ 2 ≤ q) (hd : ∀ x ∈ w, M ∣ x) :
    vmaxabs ans ≤ lim q := by
  have hpos := lim_pos (q := q)
  have hrel := h.rel
  refine le_vmaxabs (by omega) fun a ha => ?_
  obtain ⟨i, hi, rfl⟩ := List.getElem_of_mem ha
  have h1 := List.forall₂_iff_get.1 hrel
  have hi' : i < w.length := by rw [← h1.1]; exact hi
  have h2 := h1.2 i hi hi'
  simp only [List.get_eq_getElem] at h2
  obtain ⟨y, hy⟩ := hd w[i] (List.getElem_mem hi')
  have hMq : ¬(q : ℤ) ∣ M := by
    intro hM
    refine h.ne (Int.eq_zero_of_abs_lt_dvd hM ?_)
    have h3 := h.small
    rw [← sq_abs] at h3
    have h4 : 0 < |M| := abs_pos.2 h.ne
    nlinarith
  have hcong : (q : ℤ) ∣ ans[i] - y := by
    have : (q : ℤ) ∣ M * (ans[i] - y) := by
      obtain ⟨k, hk⟩ := h2
      exact ⟨k, by linear_combination hk + hy⟩
    exact ((Nat.prime_iff_prime_int.1 hq.out).dvd_or_dvd this).resolve_left hMq
  have hy2 : 2 * y ^ 2 ≤ q := by
    have h3 := hw w[i] (List.getElem_mem hi')
    rw [hy, mul_pow] at h3
    have : 1 ≤ M ^ 2 := by
      have := h.ne
      have : 0 < M ^ 2 := by positivity
      omega
    nlinarith [sq_nonneg y]
  have hlt : |y| * 2 < q := by
    by_contra hc
    push Not at hc
    have h3 : 2 * |y| ^ 2 ≤ q := by rw [sq_abs]; exact hy2
    have h0 := abs_nonneg y
    have h5 : (3 : ℤ) ≤ q := by omega
    have h4 : |y| ≤ 1 := by nlinarith
    omega
  have hL := hl ans[i] (List.getElem_mem hi)
  unfold Least at hL
  rw [abs_of_nonneg (by omega : (0 : ℤ) ≤ q)] at hL
  have hab : |ans[i] - y| < q := by
    rw [abs_lt]
    have := abs_le.1 (le_refl |y|)
    constructor <;> omega
  have heq : ans[i] = y := by
    have := Int.eq_zero_of_abs_lt_dvd hcong hab
    omega
  rw [heq]
  unfold lim
  have h6 : y.natAbs ≤ Nat.sqrt ((q : ℤ) / 2).toNat := by
    rw [Nat.le_sqrt]
    have : y ^ 2 = ((y.natAbs * y.natAbs : ℕ) : ℤ) := by
      push_cast
      rw [abs_mul_abs_self, sq]
    rw [this] at hy2
    omega
  rw [← Int.natCast_natAbs]
  exact_mod_cast h6

theorem innerLoop_complete (ht : t ≠ .big) (hq3 : 2 < q) {v w : List ℤ} (hv : ∃ x ∈ v, ¬(q : ℤ) ∣ x) (hw : ∀ x ∈ w, 2 * x ^ 2 ≤ q) :
    ∀ (idx : List ℕ) (ans : List ℤ) (mv M : ℤ), RedL q ans → Mult q ans v → (∀ i ∈ idx, i < ans.length) → 10 * (lim q - 1) < mv →
    mv = vmaxabs ans → Frac q w ans M → (∀ i x, w[i]? = some x → i ∈ idx ∨ M ∣ x) → lim q ≤ 10 * (lim q - 1) →
    ∃ r, innerLoop (smodrat t · q) t q (10 * (lim q - 1)) idx (ans, mv) = some (.inl (true, r)) := by
  intro idx
  induction idx with
  | nil =>
    intro ans mv M h1 _ _ h4 h5 h6 h7 h8
    have := h6.bound hq3 h1 hw fun x hx => by
      obtain ⟨i, hi, rfl⟩ := List.getElem_of_mem hx
      simpa using h7 i _ (List.getElem?_eq_getElem hi)
    omega
  | cons i idx ih =>
    intro ans mv M h1 h2 h3 h4 h5 h6 h7 h8
    have hi := h3 i (by simp)
    have hfr := List.forall₂_iff_get.1 h6.rel
    have hi' : i < w.length := by rw [← hfr.1]; exact hi
    have hc := hfr.2 i hi hi'
    simp only [List.get_eq_getElem] at hc
    obtain ⟨a, b, ok, e, -, hb0, hbq, hcop, -⟩ := modrat_spec hq.out ans[i]
    obtain ⟨a', b', e', hab⟩ := Marith.Props.C09_modrat_complete ans[i] q (by omega) w[i] M h6.ne
      (by obtain ⟨k, hk⟩ := hc; exact ⟨-k, by linear_combination -hk⟩) (hw _ (List.getElem_mem hi')) h6.small
    rw [e] at e'
    simp only [Option.some.injEq, Prod.mk.injEq] at e'
    obtain ⟨rfl, rfl, -⟩ := e'
    have hab := hab (by omega)
    have hbM : b ∣ M := hcop.symm.dvd_of_dvd_mul_left ⟨w[i], by linear_combination hab⟩
    obtain ⟨k, hk⟩ := (abs_dvd b M).2 hbM
    have hkw : k ∣ w[i] := by
      have h9 : b * w[i] = b * (a * k) ∨ b * w[i] = b * (-a * k) := by
        rcases abs_choice b with h | h
        · rw [h] at hk
          exact .inl (by linear_combination -hab + a * hk)
        · rw [h] at hk
          exact .inr (by linear_combination -hab + a * hk)
      rcases h9 with h9 | h9
      · exact ⟨a, by rw [mul_left_cancel₀ hb0 h9]; ring⟩
      · exact ⟨-a, by rw [mul_left_cancel₀ hb0 h9]; ring⟩
    unfold innerLoop
    simp only [List.getElem?_eq_getElem hi, Option.bind_some, (smodrat_eq ht _ _).trans e]
    by_cases hb1 : |b| = 1
    · rw [if_pos hb1]
      rw [hb1, one_mul] at hk
      refine ih ans mv M h1 h2 (fun j hj => h3 j (by simp [hj])) h4 h5 h6 (fun j x hj => ?_) h8
      rcases h7 j x hj with h | h
      · rcases List.mem_cons.1 h with rfl | h
        · right
          rw [List.getElem?_eq_getElem hi', Option.some.injEq] at hj
          rw [← hj, hk]
          exact hkw
        · exact .inl h
      · exact .inr h
    · rw [if_neg hb1]
      have hm : Mult q (scale t q |b| ans) v := h2.scale (by rwa [abs_abs]) (abs_ne_zero.2 hb0) h1
      by_cases hle : vmaxabs (scale t q |b| ans) ≤ 10 * (lim q - 1)
      · rw [if_pos hle]
        obtain ⟨r, er, hr⟩ := good_normalize hm (exists_ne_zero hm hv) hle
        exact ⟨r, by rw [er, Option.map_some]⟩
      · rw [if_neg hle]
        refine ih _ _ k (scale_red _ _) hm (fun j hj => ?_) (by omega) rfl (h6.scale (by rwa [abs_abs]) h1 hk) (fun j x hj => ?_) h8
        · have := h3 j (by simp [hj])
          unfold scale
          rwa [List.length_map]
        · rcases h7 j x hj with h | h
          · rcases List.mem_cons.1 h with rfl | h
            · right
              rw [List.getElem?_eq_getElem hi', Option.some.injEq] at hj
              rw [← hj]
              exact hkw
            · exact .inl h
          · exact .inr ((Dvd.intro_left |b| hk.symm).trans h)

/-- **C86.**  If `v` is congruent to a multiple by a unit of a vector, not zero, with entries at most `√(q/2)` in absolute value, `q ≥ 11`,
then `lift` returns 1. -/
theorem C86_lift_complete (X : Marith.XGcd) (ht : t ≠ .big) (hq8 : 8 ≤ q) {v w : List ℤ} (hvw : Mult q v w) (hw : ∀ x ∈ w, 2 * x ^ 2 ≤ q) (hw0 : ∃ x ∈ w, x ≠ 0) :
    ∃ r, liftVec X t v q = some (true, r) := by
  have hpr := Nat.prime_iff_prime_int.1 hq.out
  obtain ⟨h1, h2⟩ := reduce_mult (q := q) t v
  have hlim : lim q ≤ 10 * (lim q - 1) := by
    have : 2 ≤ Nat.sqrt ((q : ℤ) / 2).toNat := Nat.le_sqrt.2 (by omega)
    unfold lim
    omega
  have hnd : ∀ x ∈ w, x ≠ 0 → ¬(q : ℤ) ∣ x := by
    intro x hx hx0 hd
    refine hx0 (Int.eq_zero_of_abs_lt_dvd hd ?_)
    have h3 := hw x hx
    rw [← sq_abs] at h3
    have h4 : 0 < |x| := abs_pos.2 hx0
    nlinarith
  have hv : ∃ x ∈ v, ¬(q : ℤ) ∣ x := by
    obtain ⟨c, hc, hcv⟩ := hvw
    obtain ⟨x, hx, hx0⟩ := hw0
    obtain ⟨i, hi, rfl⟩ := List.getElem_of_mem hx
    have h3 := List.forall₂_iff_get.1 hcv
    have hi' : i < v.length := by rw [h3.1]; exact hi
    have h4 := h3.2 i hi' hi
    simp only [List.get_eq_getElem] at h4
    refine ⟨_, List.getElem_mem hi', fun hd => ?_⟩
    have h5 := (dvd_sub_right hd).1 h4
    rcases hpr.dvd_or_dvd h5 with h6 | h6
    · exact hc h6
    · exact hnd _ hx hx0 h6
  unfold liftVec liftVecWith
  simp only
  by_cases hle : vmaxabs (v.map (smod t · q)) ≤ 10 * (lim q - 1)
  · rw [if_pos hle]
    exact ⟨_, rfl⟩
  · rw [if_neg hle]
    set ans := v.map (smod t · q) with hans
    -- ans is a multiple of w
    obtain ⟨c, hc, hcw⟩ : Mult q ans w := by
      obtain ⟨c, hc, hcv⟩ := hvw
      refine ⟨c, hc, ?_⟩
      rw [hans, List.forall₂_map_left_iff]
      refine hcv.imp fun a b hab => Svec.Props.cong_trans (Svec.Props.smod_spec t a q (by exact_mod_cast hq.out.ne_zero)).1 hab
    obtain ⟨k, hf⟩ : ∃ k, (ans.drop 0).findIdx? (· ≠ 0) = some k := by
      rw [List.drop_zero, ← Option.isSome_iff_exists, List.findIdx?_isSome, List.any_eq_true]
      obtain ⟨x, hx, hx0⟩ := exists_ne_zero h2 hv
      exact ⟨x, hx, by simpa using hx0⟩
    obtain ⟨hk, hk0⟩ := findIdx_get hf
    have hl0 : ¬ans.length ≤ 0 := by omega
    unfold outerLoop
    simp only
    rw [if_neg hl0, hf]
    simp only [Option.bind_some, List.getElem?_eq_getElem hk]
    obtain ⟨i1, i2, i3⟩ := inv_ok (t := t) X ht (h1.abs (List.getElem_mem hk)) hk0
    have hm := h2.scale (t := t) i1 i2 h1
    have hr := scale_red (q := q) (t := t) (sinvmod X t ans[0 + k] q) ans
    have hsc := scale_cong (t := t) i1 h1
    -- the entry of w
    have h3 := List.forall₂_iff_get.1 hcw
    have hkw : 0 + k < w.length := by rw [← h3.1]; exact hk
    have h4 := h3.2 (0 + k) hk hkw
    simp only [List.get_eq_getElem] at h4
    have hW0 : w[0 + k] ≠ 0 := by
      intro h0
      rw [h0, mul_zero] at h4
      unfold Spec.Cong at h4
      rw [sub_zero] at h4
      exact hk0 (Int.eq_zero_of_abs_lt_dvd h4 (h1.abs (List.getElem_mem hk)))
    have hF : Frac q w (scale t q (sinvmod X t ans[0 + k] q) ans) w[0 + k] := by
      refine ⟨forall₂_trans ?_ hsc hcw, hW0, hw _ (List.getElem_mem hkw)⟩
      rintro a b d ⟨m, hm⟩ ⟨n, hn⟩
      obtain ⟨l, hl⟩ := h4
      obtain ⟨u, hu⟩ := i3
      -- a = inv b, b = c d, ans_k = c W, ans_k inv = 1: a W = inv c d W = inv ans_k d = d
      exact ⟨m * w[0 + k] + sinvmod X t ans[0 + k] q * w[0 + k] * n - sinvmod X t ans[0 + k] q * d * l + d * u, by
        linear_combination w[0 + k] * hm + sinvmod X t ans[0 + k] q * w[0 + k] * hn - sinvmod X t ans[0 + k] q * d * hl + d * hu⟩
    generalize scale t q (sinvmod X t ans[0 + k] q) ans = ans1 at hm hr hF ⊢
    have hvm : max 0 (vmaxabs ans1) = vmaxabs ans1 := max_eq_right (foldl_max ans1 0).1
    rw [hvm]
    by_cases hle : vmaxabs ans1 ≤ 10 * (lim q - 1)
    · rw [if_pos hle]
      obtain ⟨r, er, hgood⟩ := good_normalize hm (exists_ne_zero hm hv) hle
      exact ⟨r, er⟩
    · rw [if_neg hle]
      obtain ⟨r, er⟩ := innerLoop_complete ht (by omega) hv hw (List.range ans1.length) ans1 _ _ hr hm (fun i hi => List.mem_range.1 hi)
        (not_le.1 hle) rfl hF (fun i x hx => .inl (List.mem_range.2 (by
          have := (List.getElem?_eq_some_iff.1 hx).1
          have h5 := hF.rel.length_eq
          omega))) hlim
      rw [er]
      exact ⟨r, rfl⟩

end vec

/-! ### evaluation -/

/-- `gauss_reduce` with a bound for the number of steps -/
def loopF (negQ : Bool) : ℕ → Marith.GState → Option Marith.GState
  | 0, _ => none
  | n + 1, s =>
    if 0 < s.P then
      let t := Arith.roundedDivision s.Q s.P
      let s1 := s.shift t
      if s1.R < s1.P then loopF negQ n (s1.invert negQ)
      else if t = 0 then some s1
      else loopF negQ n s1
    else none

theorem loopF_eq (negQ : Bool) : ∀ (n : ℕ) (s : Marith.GState), 2 * s.P.toNat + (if Arith.roundedDivision s.Q s.P = 0 then 0 else 1) < n →
    loopF negQ n s = Marith.GState.loop negQ s := by
  intro n
  induction n with
  | zero => intro s h; omega
  | succ n ih =>
    intro s h
    unfold loopF
    rw [Marith.GState.loop]
    simp only
    have e : (s.shift (Arith.roundedDivision s.Q s.P)).P = s.P := by
      unfold Marith.GState.shift; split_ifs <;> rfl
    have e2 : (s.shift (Arith.roundedDivision s.Q s.P)).Q = s.Q - Arith.roundedDivision s.Q s.P * s.P := by
      unfold Marith.GState.shift; split_ifs with h <;> simp_all
    by_cases h1 : 0 < s.P
    · rw [if_pos h1, dif_pos h1]
      by_cases h2 : (s.shift (Arith.roundedDivision s.Q s.P)).R < (s.shift (Arith.roundedDivision s.Q s.P)).P
      · rw [if_pos h2, dif_pos h2]
        apply ih
        rw [e] at h2
        simp only [Marith.GState.invert]
        split_ifs <;> omega
      · rw [if_neg h2, dif_neg h2]
        by_cases h3 : Arith.roundedDivision s.Q s.P = 0
        · rw [if_pos h3, dif_pos h3]
        · rw [if_neg h3, dif_neg h3]
          apply ih
          rw [e, e2, Marith.roundedDivision_sub _ _ h1, if_pos rfl]
          rw [if_neg h3] at h
          omega
    · rw [if_neg h1, dif_neg h1]

/-- `modrat` with a bound for the number of steps, for evaluation -/
def modratF (x m : ℤ) : Option (ℤ × ℤ × Bool) :=
  (loopF true (2 * (m.natAbs * m.natAbs) + 4) (Marith.GState.init (Arith.mod x m) 1 m 0)).map fun s =>
    (s.a, s.b, decide (2 * (s.a * s.a) ≤ m) && decide (2 * (s.b * s.b) ≤ m))

theorem modratF_eq {x m : ℤ} (hm : 0 < m) : modratF x m = Marith.modratLong x m := by
  unfold modratF Marith.modratLong Marith.gaussReduce
  rw [loopF_eq]
  have hb := (Arith.Props.C04_mod x m hm.ne').2
  have h1 : (Marith.GState.init (Arith.mod x m) 1 m 0).P ≤ m * m + 1 := by
    simp only [Marith.GState.init]
    rw [abs_of_pos hm] at hb
    nlinarith [hb.1, hb.2]
  have h2 : ((m.natAbs * m.natAbs : ℕ) : ℤ) = m * m := by push_cast; exact abs_mul_abs_self m
  split_ifs <;> omega

/-- for evaluation -/
theorem liftVec_eq (X : Marith.XGcd) {t : T} (ht : t ≠ .big) (v : List ℤ) {p : ℤ} (hp : 0 < p) :
    liftVec X t v p = liftVecWith (modratF · p) X t v p := by
  unfold liftVec
  congr 1
  funext x
  rw [smodrat_eq ht, modratF_eq hp]

/-- for evaluation -/
theorem liftChinese_eq (X : Marith.XGcd) {t : T} (ht : t ≠ .big) (m1 m2 : List ℤ) {p1 p2 : ℤ} (hp : 0 < p1 * p2) :
    liftChinese X t m1 p1 m2 p2 = liftChineseWith (modratF · (p1 * p2)) X t m1 p1 m2 p2 := by
  unfold liftChinese
  congr 1
  funext x
  rw [smodrat_eq ht, modratF_eq hp]

/-- **C86.**  The comment in the code claims that the lift is found if there is one with all entries at most `10 lim` and an entry
coprime to the first one not 0.  This is false: modulo `2^30-35` the vector `(4666,47493,1)`, divided by its first entry,
is not lifted.  (The rescalings are made in place, so they are cumulative.) -/
theorem C86_lift_comment_false : ¬∀ (X : Marith.XGcd) (q : ℕ) (v w : List ℤ) (x y : ℤ), q.Prime → Mult q v w →
    (∀ x ∈ w, |x| ≤ 10 * (lim q - 1)) → w.find? (· ≠ 0) = some x → y ∈ w → IsCoprime x y → ∃ r, liftVec X .long v q = some (true, r) := by
  intro h
  obtain ⟨r, hr⟩ := h Marith.Props.xgcd0 1073741789 [1, 587037152, 660675670] [4666, 47493, 1] 4666 1 Xmod.Props.P_prime
    ⟨660675670, by decide, by
      refine .cons ?_ (.cons ?_ (.cons ?_ .nil)) <;> (unfold Spec.Cong; decide)⟩
    (by decide +kernel) (by decide) (by decide) isCoprime_one_right
  rw [liftVec_eq _ (by decide) _ (by decide)] at hr
  have : liftVecWith (modratF · 1073741789) Marith.Props.xgcd0 .long [1, 587037152, 660675670] 1073741789 =
    some (false, [105488928, -20045, 22608]) := by decide +kernel
  rw [Nat.cast_ofNat, this] at hr
  simp at hr

/-- **C86.**  `lift` throws an exception for some vectors with last entry 0: the loop which skips zero entries has no bound. -/
theorem C86_lift_exception : ¬∀ (X : Marith.XGcd) (q : ℕ) (v : List ℤ), q.Prime → ∃ o, liftVec X .long v q = some o := by
  intro h
  obtain ⟨o, ho⟩ := h Marith.Props.xgcd0 10007 [1, 123, 1928, 0] (by norm_num)
  rw [liftVec_eq _ (by decide) _ (by decide)] at ho
  have : liftVecWith (modratF · 10007) Marith.Props.xgcd0 .long [1, 123, 1928, 0] 10007 = none := by decide +kernel
  rw [Nat.cast_ofNat, this] at ho
  simp at ho

/-- hypotheses of `C86_lift_complete`: `(6,3,2)/6` modulo 10007 -/
example : ∃ r, liftVec Marith.Props.xgcd0 .int [1, 5004, 3336] (10007 : ℕ) = some (true, r) := by
  have : Fact (Nat.Prime 10007) := ⟨by norm_num⟩
  exact C86_lift_complete (q := 10007) (w := [6, 3, 2]) Marith.Props.xgcd0 (by decide) (by decide)
    ⟨1668, by decide, by refine .cons ?_ (.cons ?_ (.cons ?_ .nil)) <;> (unfold Spec.Cong; decide)⟩ (by decide) ⟨6, by decide, by decide⟩

/-- the outcome -/
example : liftVecWith (modratF · 10007) Marith.Props.xgcd0 .int [1, 5004, 3336] 10007 = some (true, [6, 3, 2]) := by decide +kernel

/-! ### dense matrices and subspaces -/

/-- `maxabs` of a dense matrix is always 0 -/
theorem C84_maxabs_zero (m : Mat.M) : maxabs m = 0 := by
  unfold maxabs
  generalize m.rows.flatten = l
  suffices h : ∀ a : ℤ, l.foldl (fun a _ => a) a = a from h 0
  induction l with
  | nil => exact fun a => rfl
  | cons x l ih => exact fun a => ih a

/-- **C84.**  `maxabs` of a dense matrix is not an upper bound for the entries -/
theorem C84_maxabs_wrong : ¬∀ (m : Mat.M) (r : List ℤ) (x : ℤ), r ∈ m.rows → x ∈ r → |x| ≤ maxabs m := by
  intro h
  have := h ⟨1, [[5]]⟩ [5] 5 (by simp) (by simp)
  rw [C84_maxabs_zero] at this
  norm_num at this

/-- **C84.**  `liftmat` for dense matrices returns 1 for every matrix, with `m` congruent to the matrix given and reduced.
Missing: `dd` is not set, and entries which are fractions are not lifted, see `C84_lift_subspace_undefined` and `C84_liftmat_wrong`. -/
theorem C84_liftmat_partial {q : ℕ} [hq : Fact q.Prime] (t : T) (mm : Mat.M) (dd : Option ℤ) : ∃ m, liftmatD t mm q dd = some (true, m, dd) ∧
    m.nc = mm.nc ∧ List.Forall₂ (List.Forall₂ fun a x => Spec.Cong q a x ∧ Least q a) m.rows mm.rows := by
  refine ⟨Mat.reduceModP t q mm, ?_, rfl, ?_⟩
  · unfold liftmatD
    simp only
    rw [C84_maxabs_zero, if_pos lim_pos]
  · unfold Mat.reduceModP
    simp only
    rw [List.forall₂_map_left_iff, List.forall₂_same]
    intro r _
    rw [List.forall₂_map_left_iff, List.forall₂_same]
    exact fun x _ => Svec.Props.smod_spec t x q (by exact_mod_cast hq.out.ne_zero)

/-- **C84.**  The claim for sparse matrices (C83) is false for dense matrices: modulo 101 the matrix `(1, 1/2)` is congruent to
`(1/2)(2,1)`, but `liftmat` returns 1 with the matrix `(1,-50)` and leaves `dd` as it was. -/
theorem C84_liftmat_wrong : ¬∀ (q : ℕ) (mm : Mat.M) (D : ℤ) (Z : List (List ℤ)) (dd0 : Option ℤ), q.Prime → 0 < D → 2 * D ^ 2 ≤ q →
    (∀ r ∈ Z, ∀ x ∈ r, 2 * x ^ 2 ≤ q) → List.Forall₂ (List.Forall₂ fun a z => Spec.Cong q z (a * D)) mm.rows Z →
    ∃ m dd, liftmatD .long mm q dd0 = some (true, m, some dd) ∧ List.Forall₂ (List.Forall₂ fun b z => D * b = dd * z) m.rows Z := by
  intro h
  obtain ⟨m, dd, h1, h2⟩ := h 101 ⟨2, [[1, 51]]⟩ 2 [[2, 1]] (some 1) (by norm_num) (by decide) (by decide) (by decide)
    (.cons (.cons (by unfold Spec.Cong; decide) (.cons (by unfold Spec.Cong; decide) .nil)) .nil)
  have : liftmatD .long ⟨2, [[1, 51]]⟩ 101 (some 1) = some (true, ⟨2, [[1, -50]]⟩, some 1) := by decide +kernel
  rw [Nat.cast_ofNat, this] at h1
  simp only [Option.some.injEq, Prod.mk.injEq, true_and] at h1
  obtain ⟨rfl, rfl⟩ := h1
  simp at h2

/-- **C84.**  Lifting a subspace uses the denominator without a value (`int`, `long`), or the denominator is 0 (`bigint`). -/
theorem C84_lift_subspace_undefined {q : ℕ} [hq : Fact q.Prime] (t : T) (s : Mat.Sub) :
    (t ≠ .big → liftSub t s q = none) ∧ (t = .big → ∃ s', liftSub t s q = some (true, s') ∧ s'.denom = 0) := by
  obtain ⟨m, h, -⟩ := C84_liftmat_partial (q := q) t s.basis (fresh t)
  unfold liftSub
  rw [h, Option.bind_some]
  constructor
  · intro ht
    cases t
    · rfl
    · rfl
    · exact absurd rfl ht
  · rintro rfl
    exact ⟨_, rfl, rfl⟩

/-! ### lifting from two primes -/

/-- the identity for the gcd -/
theorem sbezout_spec (X : Marith.XGcd) (t : T) (a b : ℤ) : a * (sbezout X t a b).2.1 + b * (sbezout X t a b).2.2 = (sbezout X t a b).1 := by
  cases t
  · have := Arith.Props.C01_bezout a b
    unfold sbezout
    rw [this.1, this.2]
  · have := Arith.Props.C01_bezout a b
    unfold sbezout
    rw [this.1, this.2]
  · exact X.identity a b

theorem crtRow_spec {mr : ℤ → Option (ℤ × ℤ × Bool)} {t : T} (ht : t ≠ .int) {p1 p2 u v : ℤ} (h1 : p1 ≠ 0) (h2 : p2 ≠ 0) (huv : p1 * u + p2 * v = 1) :
    ∀ (m1 m2 : List ℤ) (dd d dd' d' : ℤ) (l : List ℤ), d ∣ dd → crtRow mr t p1 p2 u v dd d m1 m2 = some (true, dd', d', l) →
      d' ∣ dd' ∧ List.Forall₂ (fun z x => Spec.Cong p1 z x) l m1 ∧ List.Forall₂ (fun z y => Spec.Cong p2 z y) l (m2.take m1.length) := by
  have hred : ∀ p x, Red t p x := fun p x h => absurd h ht
  intro m1
  induction m1 with
  | nil =>
    intro m2 dd d dd' d' l hd h
    simp only [crtRow, Option.some.injEq, Prod.mk.injEq, true_and] at h
    obtain ⟨rfl, rfl, rfl⟩ := h
    exact ⟨hd, .nil, by simp⟩
  | cons x m1 ih =>
    intro m2 dd d dd' d' l hd h
    cases m2 with
    | nil => simp [crtRow] at h
    | cons y m2 =>
      unfold crtRow at h
      simp only at h
      rw [Option.bind_eq_some_iff] at h
      obtain ⟨r, hr, h⟩ := h
      split_ifs at h with hok
      · rw [Option.map_eq_some_iff] at h
        obtain ⟨⟨z1, z2, z3, z4⟩, hz, h⟩ := h
        simp only [Prod.mk.injEq] at h
        obtain ⟨rfl, rfl, rfl, rfl⟩ := h
        have hdv : r.2.1 ∣ slcm t r.2.1 dd := by
          unfold slcm
          split_ifs
          · exact dvd_zero _
          · exact Dvd.intro _ rfl
        obtain ⟨k1, k2, k3⟩ := ih _ _ _ _ _ _ hdv hz
        obtain ⟨e1, e2⟩ := Svec.Props.smod_spec t (sxmodmul t v x p1 * p2 + sxmodmul t u y p2 * p1) (p1 * p2) (mul_ne_zero h1 h2)
        obtain ⟨a, ha⟩ := e1
        obtain ⟨b, hb⟩ := Svec.Props.sxmodmul_cong t v x p1 (hred _ _) (hred _ _)
        obtain ⟨c, hc⟩ := Svec.Props.sxmodmul_cong t u y p2 (hred _ _) (hred _ _)
        refine ⟨k1, .cons ⟨p2 * a + p2 * b + sxmodmul t u y p2 - u * x, ?_⟩ k2, ?_⟩
        · linear_combination ha + p2 * hb + x * huv
        · rw [List.length_cons, List.take_succ_cons]
          exact .cons ⟨p1 * a + p1 * c + sxmodmul t v x p1 - v * y, by linear_combination ha + p1 * hc + y * huv⟩ k3
      · simp at h

/-- **C85.**  If `liftmats_chinese` (for one row, `long` or `bigint`) returns 1 then the new entries are congruent modulo both primes to the same multiple
of the entries given, the factor being a divisor of `dd`, and are reduced modulo the product.  Missing: the factor should be `dd` itself, so that the matrix divided by `dd` is
congruent to both matrices; this is false, see `C85_liftmats_chinese_wrong`. -/
theorem C85_liftmats_chinese_partial (X : Marith.XGcd) {t : T} (ht : t ≠ .int) {p1 p2 : ℤ} (h1 : p1 ≠ 0) (h2 : p2 ≠ 0) {m1 m2 r : List ℤ} {dd : ℤ}
    (h : liftChinese X t m1 p1 m2 p2 = some (true, r, dd)) : ∃ k, k ∣ dd ∧ List.Forall₂ (fun z x => Spec.Cong p1 z (k * x) ∧ Least (p1 * p2) z) r m1 ∧
      List.Forall₂ (fun z y => Spec.Cong p2 z (k * y)) r (m2.take m1.length) := by
  have hred : ∀ p x, Red t p x := fun p x h => absurd h ht
  unfold liftChinese liftChineseWith at h
  simp only at h
  have hb := sbezout_spec X t p1 p2
  split_ifs at h with hg
  · simp at h
  · rw [Option.bind_eq_some_iff] at h
    obtain ⟨⟨ok, dd', d', l⟩, hc, h⟩ := h
    simp only at h
    split_ifs at h with hok hd
    · subst hok
      rw [Option.some.injEq, Prod.mk.injEq, Prod.mk.injEq] at h
      obtain ⟨-, hr, hdd⟩ := h
      obtain ⟨k1, k2, k3⟩ := crtRow_spec ht h1 h2 (hb.trans (not_not.1 hg)) m1 m2 1 1 dd' d' l dvd_rfl hc
      have key : ∀ z x p : ℤ, p ∣ p1 * p2 → Spec.Cong p z x → Spec.Cong p (smod t (sxmodmul t (sdiv t |dd'| d') z (p1 * p2)) (p1 * p2)) (sdiv t |dd'| d' * x) := by
        rintro z x p ⟨e, he⟩ ⟨a, ha⟩
        obtain ⟨b, hb⟩ := (Svec.Props.smod_spec t (sxmodmul t (sdiv t |dd'| d') z (p1 * p2)) (p1 * p2) (mul_ne_zero h1 h2)).1
        obtain ⟨c, hc⟩ := Svec.Props.sxmodmul_cong t (sdiv t |dd'| d') z (p1 * p2) (hred _ _) (hred _ _)
        exact ⟨e * b + e * c + sdiv t |dd'| d' * a, by linear_combination hb + hc + sdiv t |dd'| d' * ha + (b + c) * he⟩
      refine ⟨sdiv t |dd'| d', ?_, ?_, ?_⟩
      · rw [← hdd]
        by_cases h0 : d' = 0
        · have : dd' = 0 := by rw [h0] at k1; exact zero_dvd_iff.1 k1
          rw [this, abs_zero]
          exact dvd_zero _
        · obtain ⟨k, hk⟩ := (dvd_abs d' dd').2 k1
          rw [hk]
          have : sdiv t (d' * k) d' = k := by
            cases t
            · exact Int.mul_tdiv_cancel_left _ h0
            · exact Int.mul_tdiv_cancel_left _ h0
            · exact Int.mul_fdiv_cancel_left _ h0
          rw [this]
          exact Dvd.intro_left _ rfl
      · rw [← hr, List.forall₂_map_left_iff]
        exact k2.imp fun z x hzx => ⟨key z x p1 (Dvd.intro _ rfl) hzx, (Svec.Props.smod_spec t _ (p1 * p2) (mul_ne_zero h1 h2)).2⟩
      · rw [← hr, List.forall₂_map_left_iff]
        exact k3.imp fun z y hzy => key z y p2 (Dvd.intro_left _ rfl) hzy
    · simp at h

/-- **C85.**  The matrix found by `liftmats_chinese` divided by `dd` need not be congruent to the matrices given: `1/2` is 51 modulo 101 and 52 modulo 103, and the outcome is
`-5201/2`, which is `51/2` modulo 101. -/
theorem C85_liftmats_chinese_wrong : ¬∀ (X : Marith.XGcd) (p1 p2 x y z dd : ℤ), liftChinese X .long [x] p1 [y] p2 = some (true, [z], dd) →
    Spec.Cong p1 z (dd * x) := by
  intro h
  have h1 := h Marith.Props.xgcd0 101 103 51 52 (-5201) 2 (by
    rw [liftChinese_eq _ (by decide) _ _ (by decide)]
    decide +kernel)
  unfold Spec.Cong at h1
  revert h1
  decide

/-- hypotheses of `C85_liftmats_chinese_partial` -/
example : liftChineseWith (modratF · (101 * 103)) Marith.Props.xgcd0 .long [51, 7] 101 [52, 7] 103 = some (true, [1, 14], 2) := by decide +kernel

end Eclib.Lift
