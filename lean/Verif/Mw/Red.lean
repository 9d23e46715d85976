import Verif.Mw.Gram
import Verif.Mw.Rat
import Verif.Arith.Props
import Mathlib.Data.List.GetD

/-!
# Relations: `cleardenoms` and the reduction of a relation (mw::process)
-/

namespace Eclib.Mw

set_option linter.unusedSectionVars false

variable {K : Type} [Field K] [LinearOrder K] [IsStrictOrderedRing K] [FloorRing K]
variable {A : Type} [AddCommGroup A]

/-! ## cleardenoms -/

theorem mapM_some {α β : Type} (f : α → Option β) (g : α → β) : ∀ l : List α, (∀ a ∈ l, f a = some (g a)) → l.mapM f = some (l.map g) := by
  intro l
  induction l with
  | nil => intro _; rfl
  | cons a l ih =>
    intro h
    rw [List.mapM_cons, h a List.mem_cons_self, ih fun b hb => h b (List.mem_cons_of_mem _ hb)]
    rfl

theorem lcm_step {g d : ℤ} (hg : 0 < g) (hd : 0 < d) : (g * d).tdiv (Int.gcd g d) = (Int.lcm g d : ℤ) := by
  have h := Int.gcd_mul_lcm g d
  have h0 : (0 : ℤ) < (Int.gcd g d : ℤ) := by
    exact_mod_cast Int.gcd_pos_of_ne_zero_left d hg.ne'
  have h1 : g * d = (Int.lcm g d : ℤ) * (Int.gcd g d : ℤ) := by
    have : ((Int.gcd g d * Int.lcm g d : ℕ) : ℤ) = ((g * d).natAbs : ℤ) := by rw [h, Int.natAbs_mul]
    rw [Int.natCast_natAbs, abs_of_pos (mul_pos hg hd)] at this
    rw [← this]
    push_cast
    ring
  rw [h1, Int.mul_tdiv_cancel _ h0.ne']

theorem lcm_fold : ∀ (l : List (ℤ × ℤ)) (g : ℤ), 0 < g → (∀ nd ∈ l, 0 < nd.2) →
    0 < l.foldl (fun (g : ℤ) (nd : ℤ × ℤ) => (g * nd.2).tdiv (Int.gcd g nd.2)) g ∧
    g ∣ l.foldl (fun (g : ℤ) (nd : ℤ × ℤ) => (g * nd.2).tdiv (Int.gcd g nd.2)) g ∧
    (∀ nd ∈ l, nd.2 ∣ l.foldl (fun (g : ℤ) (nd : ℤ × ℤ) => (g * nd.2).tdiv (Int.gcd g nd.2)) g) ∧
    ∀ N, g ∣ N → (∀ nd ∈ l, nd.2 ∣ N) → l.foldl (fun (g : ℤ) (nd : ℤ × ℤ) => (g * nd.2).tdiv (Int.gcd g nd.2)) g ∣ N := by
  intro l
  induction l with
  | nil =>
    intro g hg _
    exact ⟨hg, dvd_rfl, by simp, fun N h _ => h⟩
  | cons nd l ih =>
    intro g hg h
    have hd := h nd List.mem_cons_self
    have hl : 0 < (Int.lcm g nd.2 : ℤ) := by
      exact_mod_cast Nat.pos_of_ne_zero (Int.lcm_ne_zero hg.ne' hd.ne')
    obtain ⟨h1, h2, h3, h4⟩ := ih _ hl fun x hx => h x (List.mem_cons_of_mem _ hx)
    rw [List.foldl_cons, lcm_step hg hd]
    refine ⟨h1, (Int.dvd_lcm_left g nd.2).trans h2, ?_, ?_⟩
    · intro x hx
      rcases List.mem_cons.1 hx with rfl | hx
      · exact (Int.dvd_lcm_right g x.2).trans h2
      · exact h3 x hx
    · intro N hN hN2
      exact h4 N (Int.coe_lcm_dvd hN (hN2 nd List.mem_cons_self)) fun x hx => hN2 x (List.mem_cons_of_mem _ hx)

theorem reduce_frac {c m : ℤ} (hm : 0 < m) : ∃ n d e : ℤ, c = n * e ∧ m = d * e ∧ 0 < d ∧ 0 < e ∧ IsCoprime n d := by
  have h0 : 0 < Int.gcd c m := Int.gcd_pos_of_ne_zero_right c hm.ne'
  have h0' : (0 : ℤ) < (Int.gcd c m : ℤ) := by exact_mod_cast h0
  obtain ⟨n, hn⟩ := Int.gcd_dvd_left (a := c) (b := m)
  obtain ⟨d, hd⟩ := Int.gcd_dvd_right (a := c) (b := m)
  refine ⟨n, d, Int.gcd c m, by rw [mul_comm]; exact hn, by rw [mul_comm]; exact hd, ?_, h0', ?_⟩
  · rw [hd] at hm
    exact pos_of_mul_pos_right hm h0'.le
  · have hb := Int.gcd_eq_gcd_ab c m
    refine ⟨Int.gcdA c m, Int.gcdB c m, ?_⟩
    have : (Int.gcd c m : ℤ) * (Int.gcdA c m * n + Int.gcdB c m * d) = (Int.gcd c m : ℤ) * 1 := by
      linear_combination -(Int.gcdA c m) * hn - (Int.gcdB c m) * hd - hb
    exact mul_left_cancel₀ h0'.ne' this

theorem cleardenoms_spec {fuel : ℕ} (hf : 5 * 10 ^ 6 < fuel) {alpha : List K} {last : K} (hl : last ≠ 0) {m : ℤ} (hm : 1 ≤ m) (hm2 : m ≤ 3162)
    {c : ℕ → ℤ} (h : ∀ i (hi : i < alpha.length), alpha[i] / last = (c i : K) / (m : K)) :
    ∃ nl L, cleardenoms fuel alpha last = some (nl, L) ∧ 0 < L ∧ L ∣ m ∧ (∀ i < alpha.length, m * nl.getD i 0 = L * c i) ∧
      ∀ d : ℤ, d ∣ L → (∀ i < alpha.length, d ∣ nl.getD i 0) → d ∣ 1 := by
  have hg : ∀ i (hi : i < alpha.length), ∃ n d : ℤ, ratapprox fuel 0 (alpha[i] / last) = some (n, d) ∧ 0 < d ∧ IsCoprime n d ∧ d ∣ m ∧ n * m = c i * d := by
    intro i hi
    obtain ⟨n, d, e, h1, h2, h3, h4, h5⟩ := reduce_frac (c := c i) (m := m) (by omega)
    obtain ⟨a, b, h6, h7, h8, h9, h10⟩ := Props.C117_ratapprox (alpha[i] / last) fuel hf
    have hd : d ≤ 3162 := by nlinarith
    have e1 : alpha[i] / last = (n : K) / (d : K) := by
      rw [h i hi, h1, h2]
      have h3' : (d : K) ≠ 0 := by exact_mod_cast h3.ne'
      have h4' : (e : K) ≠ 0 := by exact_mod_cast h4.ne'
      push_cast
      field_simp
    obtain ⟨rfl, rfl⟩ := h10 n d h3 hd e1 h5
    exact ⟨a, b, h6, h7, h8, ⟨e, h2⟩, by rw [h1, h2]; ring⟩
  set g : K → ℤ × ℤ := fun a => (ratapprox fuel 0 (a / last)).getD (0, 1) with hgdef
  have hmap : alpha.mapM (fun (a : K) => ratapprox fuel 0 (a / last)) = some (alpha.map g) := by
    apply mapM_some
    intro a ha
    obtain ⟨i, hi, rfl⟩ := List.mem_iff_getElem.1 ha
    obtain ⟨n, d, h1, _⟩ := hg i hi
    simp only [hgdef, h1, Option.getD_some]
  have hgi : ∀ i (hi : i < alpha.length), 0 < (g alpha[i]).2 ∧ IsCoprime (g alpha[i]).1 (g alpha[i]).2 ∧ (g alpha[i]).2 ∣ m ∧
      (g alpha[i]).1 * m = c i * (g alpha[i]).2 := by
    intro i hi
    obtain ⟨n, d, h1, h2⟩ := hg i hi
    simp only [hgdef, h1, Option.getD_some]
    exact h2
  have hmem : ∀ nd ∈ alpha.map g, ∃ i, ∃ hi : i < alpha.length, nd = g alpha[i] := by
    intro nd hnd
    obtain ⟨a, ha, rfl⟩ := List.mem_map.1 hnd
    obtain ⟨i, hi, rfl⟩ := List.mem_iff_getElem.1 ha
    exact ⟨i, hi, rfl⟩
  obtain ⟨f1, -, f3, f4⟩ := lcm_fold (alpha.map g) 1 one_pos fun nd hnd => by
    obtain ⟨i, hi, rfl⟩ := hmem nd hnd
    exact (hgi i hi).1
  set L := (alpha.map g).foldl (fun (g : ℤ) (nd : ℤ × ℤ) => (g * nd.2).tdiv (Int.gcd g nd.2)) 1 with hL
  refine ⟨(alpha.map g).map fun (nd : ℤ × ℤ) => nd.1 * L.tdiv nd.2, L, ?_, f1, ?_, ?_, ?_⟩
  · unfold cleardenoms
    rw [if_neg hl, hmap]
    rfl
  · refine f4 m (one_dvd m) fun nd hnd => ?_
    obtain ⟨i, hi, rfl⟩ := hmem nd hnd
    exact (hgi i hi).2.2.1
  · intro i hi
    obtain ⟨g1, g2, g3, g4⟩ := hgi i hi
    obtain ⟨k, hk⟩ := f3 (g alpha[i]) (List.mem_map_of_mem (List.getElem_mem hi))
    rw [List.getD_eq_getElem _ _ (by simpa using hi)]
    simp only [List.getElem_map]
    have e1 : L.tdiv (g alpha[i]).2 = k := by rw [hk, Int.mul_tdiv_cancel_left _ g1.ne']
    rw [e1, hk]
    linear_combination k * g4
  · rintro d ⟨e, he⟩ hd
    have hd0 : d ≠ 0 := by
      rintro rfl
      rw [zero_mul] at he
      omega
    have he0 : e ≠ 0 := by
      rintro rfl
      rw [mul_zero] at he
      omega
    have : L ∣ e := by
      refine f4 e (one_dvd e) fun nd hnd => ?_
      obtain ⟨i, hi, rfl⟩ := hmem nd hnd
      obtain ⟨g1, g2, g3, g4⟩ := hgi i hi
      obtain ⟨k, hk⟩ := f3 (g alpha[i]) hnd
      obtain ⟨t, ht⟩ := hd i hi
      rw [List.getD_eq_getElem _ _ (by simpa using hi)] at ht
      simp only [List.getElem_map] at ht
      have e1 : L.tdiv (g alpha[i]).2 = k := by rw [hk, Int.mul_tdiv_cancel_left _ g1.ne']
      rw [e1] at ht
      apply g2.symm.dvd_of_dvd_mul_left
      refine ⟨t, ?_⟩
      apply mul_left_cancel₀ hd0
      linear_combination (g alpha[i]).2 * ht - (g alpha[i]).1 * he + (g alpha[i]).1 * hk
    obtain ⟨k, hk⟩ := this
    refine ⟨k, ?_⟩
    apply mul_left_cancel₀ he0
    linear_combination hk + k * he

/-! ## the smallest coefficient -/

theorem findMin_spec (a : ℕ → ℤ) : ∀ n, (findMin n a = (0, none) ∧ ∀ i < n, a i = 0) ∨
    ∃ i < n, findMin n a = (|a i|, some i) ∧ a i ≠ 0 ∧ ∀ j < n, a j ≠ 0 → |a i| ≤ |a j| := by
  intro n
  induction n with
  | zero => exact Or.inl ⟨rfl, by simp⟩
  | succ n ih =>
    have e : findMin (n + 1) a = if |a n| > 0 ∧ ((findMin n a).2 = none ∨ |a n| < (findMin n a).1) then (|a n|, some n) else findMin n a := by
      unfold findMin
      rw [List.range_succ, List.foldl_append]
      rfl
    rw [e]
    rcases ih with ⟨h1, h2⟩ | ⟨i, hi, h1, h2, h3⟩
    · rw [h1]
      by_cases h : a n = 0
      · left
        rw [if_neg (by simp [h])]
        refine ⟨rfl, fun i hi => ?_⟩
        by_cases hin : i = n
        · rw [hin, h]
        · exact h2 i (by omega)
      · right
        refine ⟨n, by omega, ?_, h, fun j hj hj0 => ?_⟩
        · rw [if_pos ⟨abs_pos.2 h, Or.inl rfl⟩]
        · by_cases hjn : j = n
          · rw [hjn]
          · exact absurd (h2 j (by omega)) hj0
    · right
      rw [h1]
      by_cases h : |a n| > 0 ∧ ((some i : Option ℕ) = none ∨ |a n| < |a i|)
      · rw [if_pos h]
        have h' : |a n| < |a i| := by
          rcases h.2 with h' | h'
          · cases h'
          · exact h'
        refine ⟨n, by omega, rfl, abs_pos.1 h.1, fun j hj hj0 => ?_⟩
        by_cases hjn : j = n
        · rw [hjn]
        · exact h'.le.trans (h3 j (by omega) hj0)
      · rw [if_neg h]
        refine ⟨i, by omega, rfl, h2, fun j hj hj0 => ?_⟩
        by_cases hjn : j = n
        · rw [hjn] at hj0 ⊢
          by_contra hlt
          exact h ⟨abs_pos.2 hj0, Or.inr (not_le.1 hlt)⟩
        · exact h3 j (by omega) hj0

/-! ## the reduction -/

/-- a relation between the first `n` values of `x` -/
structure Rel (B : A →+ A →+ K) (n : ℕ) (x : ℕ → A) (a : ℕ → ℤ) (l : K) : Prop where
  rel : IsOfFinAddOrder (∑ i : Fin n, a i • x i)
  gcd : ∀ d : ℤ, (∀ i < n, d ∣ a i) → d ∣ 1
  p2 : Prop2 B n x a l

theorem sum_step {n : ℕ} (x : ℕ → A) (a : ℕ → ℤ) {i k : ℕ} (hi : i < n) (hk : k < n) (hik : i ≠ k) (q : ℤ) :
    ∑ u : Fin n, Function.update a i (a i - q * a k) u • Function.update x k (x k + q • x i) u = ∑ u : Fin n, a u • x u := by
  have h : ∀ u : Fin n, Function.update a i (a i - q * a k) u • Function.update x k (x k + q • x i) u =
      a u • x u + ((if u = ⟨k, hk⟩ then (q * a k) • x i else 0) - (if u = ⟨i, hi⟩ then (q * a k) • x i else 0)) := by
    intro u
    by_cases h1 : (u : ℕ) = k
    · have h2 : (u : ℕ) ≠ i := fun h => hik (h.symm.trans h1)
      rw [if_pos (Fin.ext h1), if_neg (fun h => h2 (congrArg Fin.val h)), Function.update_of_ne h2, h1, Function.update_self, sub_zero, smul_add, smul_smul,
        mul_comm q]
    · by_cases h2 : (u : ℕ) = i
      · rw [if_neg (fun h => h1 (congrArg Fin.val h)), if_pos (Fin.ext h2), Function.update_of_ne h1, h2, Function.update_self, sub_smul]
        abel
      · rw [if_neg (fun h => h1 (congrArg Fin.val h)), if_neg (fun h => h2 (congrArg Fin.val h)), Function.update_of_ne h1, Function.update_of_ne h2]
        simp
  rw [Finset.sum_congr rfl fun u _ => h u, Finset.sum_add_distrib, Finset.sum_sub_distrib]
  simp

theorem Sp_step {n : ℕ} (x : ℕ → A) {i k : ℕ} (hi : i < n) (hk : k < n) (hik : i ≠ k) (q : ℤ) :
    Sp n (Function.update x k (x k + q • x i)) = Sp n x := by
  apply le_antisymm
  · refine Sp_le (fun u hu => ?_) fun t ht => tors_mem_Sp _ ht
    by_cases h : u = k
    · rw [h, Function.update_self]
      exact add_mem (x_mem_Sp x hk) (zsmul_mem (x_mem_Sp x hi) q)
    · rw [Function.update_of_ne h]
      exact x_mem_Sp x hu
  · refine Sp_le (fun u hu => ?_) fun t ht => tors_mem_Sp _ ht
    have h1 := x_mem_Sp (Function.update x k (x k + q • x i)) hi
    have h2 := x_mem_Sp (Function.update x k (x k + q • x i)) hk
    rw [Function.update_of_ne hik] at h1
    rw [Function.update_self] at h2
    by_cases h : u = k
    · rw [h]
      have := sub_mem h2 (zsmul_mem h1 q)
      rwa [add_sub_cancel_right] at this
    · have := x_mem_Sp (Function.update x k (x k + q • x i)) hu
      rwa [Function.update_of_ne h] at this

theorem redLoop_spec {B : A →+ A →+ K} {n : ℕ} {l : K} : ∀ (fuel : ℕ) (x : ℕ → A) (a : ℕ → ℤ) (min : ℤ) (imin : ℕ), Rel B n x a l →
    imin < n → min = |a imin| → 1 ≤ min → min < fuel →
    ∃ x' a' i', redLoop n fuel x a min imin = some (x', a', i') ∧ Rel B n x' a' l ∧ i' < n ∧ |a' i'| = 1 ∧ Sp n x' = Sp n x := by
  intro fuel
  induction fuel with
  | zero => intro x a min imin _ _ _ h1 h2; simp at h2; omega
  | succ f ih =>
    intro x a min imin R hi hm h1 h2
    unfold redLoop
    by_cases h : min > 1
    · rw [if_pos h]
      cases hf : (List.range n).find? fun (i : ℕ) => Arith.mod (a i) min ≠ 0 with
      | none =>
        exfalso
        rw [List.find?_eq_none] at hf
        have := R.gcd min fun i hin => by
          have h3 := hf i (List.mem_range.2 hin)
          have h4 : Arith.mod (a i) min = 0 := by simpa using h3
          have h5 := (Arith.Props.C04_mod (a i) min (by omega)).1
          rw [h4] at h5
          unfold Spec.Cong at h5
          simpa using h5
        have := Int.le_of_dvd one_pos this
        omega
      | some i =>
        have hin : i < n := List.mem_range.1 (List.mem_of_find?_eq_some hf)
        have hr : Arith.mod (a i) min ≠ 0 := by
          have := List.find?_some hf
          simpa using this
        obtain ⟨c1, c2, c3⟩ := Arith.Props.C04_mod (a i) min (by omega)
        set r := Arith.mod (a i) min with hrdef
        have hmp : |min| = min := abs_of_pos (by omega)
        rw [hmp] at c2 c3
        have hne : i ≠ imin := by
          rintro rfl
          have h3 : min ∣ a i := by rw [hm, abs_dvd]
          have h4 : min ∣ r := by
            unfold Spec.Cong at c1
            have := dvd_add c1 h3
            simpa using this
          rcases h4 with ⟨t, ht⟩
          have : t ≠ 0 := by
            rintro rfl
            exact hr (by rw [ht, mul_zero])
          rcases lt_or_gt_of_ne this with h5 | h5 <;> nlinarith
        have hdvd : a imin ∣ a i - r := by
          unfold Spec.Cong at c1
          rw [hm, abs_dvd] at c1
          have := dvd_neg.2 c1
          rwa [neg_sub] at this
        have hq : a i - (a i - r).tdiv (a imin) * a imin = r := by
          rw [Int.tdiv_mul_cancel hdvd]
          ring
        have R' : Rel B n (Function.update x imin (x imin + (a i - r).tdiv (a imin) • x i)) (Function.update a i r) l := by
          have e1 := sum_step x a hin hi hne ((a i - r).tdiv (a imin))
          have e2 := prop2_step R.p2 hin hi hne ((a i - r).tdiv (a imin))
          rw [hq] at e1 e2
          refine ⟨by rw [e1]; exact R.rel, fun d hd => R.gcd d fun u hu => ?_, e2⟩
          have h3 := hd imin hi
          rw [Function.update_of_ne hne.symm] at h3
          by_cases hui : u = i
          · subst hui
            have h4 := hd u hu
            rw [Function.update_self, ← hq] at h4
            have := dvd_add h4 (h3.mul_left ((a u - r).tdiv (a imin)))
            simpa using this
          · have h4 := hd u hu
            rwa [Function.update_of_ne hui] at h4
        have hra : |r| < min := by
          rw [abs_lt]
          constructor <;> omega
        have hr1 : 1 ≤ |r| := Int.one_le_abs hr
        obtain ⟨x', a', i', g1, g2, g3, g4, g5⟩ := ih _ _ |r| i R' hin (by rw [Function.update_self]) hr1 (by push_cast at h2; omega)
        exact ⟨x', a', i', g1, g2, g3, g4, by rw [g5, Sp_step x hin hi hne]⟩
    · rw [if_neg h]
      exact ⟨x, a, imin, rfl, R, hi, by omega, rfl⟩

/-- a point with coefficient 1 or -1 can be left out -/
theorem Sp_erase {r : ℕ} {x : ℕ → A} {a : ℕ → ℤ} {i : ℕ} (hi : i < r + 1) (h : IsOfFinAddOrder (∑ u : Fin (r + 1), a u • x u)) (ha : |a i| = 1) :
    Sp r (erase x i) = Sp (r + 1) x := by
  have hin : ∀ u < r + 1, u ≠ i → x u ∈ Sp r (erase x i) := by
    intro u hu hne
    by_cases hlt : u < i
    · have := x_mem_Sp (erase x i) (show u < r by omega)
      unfold erase at this
      rwa [if_pos hlt] at this
    · have := x_mem_Sp (erase x i) (show u - 1 < r by omega)
      unfold erase at this
      rwa [if_neg (by omega), Nat.sub_add_cancel (by omega)] at this
  apply le_antisymm
  · refine Sp_le (fun u hu => ?_) fun t ht => tors_mem_Sp _ ht
    unfold erase
    split_ifs
    · exact x_mem_Sp x (by omega)
    · exact x_mem_Sp x (by omega)
  · refine Sp_le (fun u hu => ?_) fun t ht => tors_mem_Sp _ ht
    by_cases hui : u = i
    · subst hui
      have h1 : a u • x u ∈ Sp r (erase x u) := by
        have e : a u • x u = (∑ v : Fin (r + 1), a v • x v) - ∑ v ∈ Finset.univ.erase (⟨u, hi⟩ : Fin (r + 1)), a v • x v := by
          rw [← Finset.add_sum_erase _ _ (Finset.mem_univ (⟨u, hi⟩ : Fin (r + 1)))]
          abel
        rw [e]
        refine sub_mem (tors_mem_Sp _ h) (AddSubgroup.sum_mem _ fun v hv => zsmul_mem (hin v v.2 fun hvu => ?_) _)
        exact (Finset.mem_erase.1 hv).1 (Fin.ext hvu)
      rcases abs_eq (by norm_num : (0 : ℤ) ≤ 1) |>.1 ha with h2 | h2
      · rwa [h2, one_smul] at h1
      · rw [h2, neg_smul, one_smul] at h1
        simpa using neg_mem h1
    · exact hin u hu hui

end Eclib.Mw
