import Verif.Lll.Swap

/-!
# Adding a vector to the decomposition (`step2`)
-/

namespace Eclib.Lll

open Finset

variable {m : ℕ}

/-- `wt` of the `d` of a state. -/
local notation "𝔴[" s "]" => wt (fun i => ((St.d s i : ℤ) : ℚ))

theorem uVal_spec {k j : ℕ} {s : St m} (hk : 1 ≤ k) (h : Inv s (k - 1)) (hj : 1 ≤ j) (hjk : j ≤ k)
    (H : ∀ c, 1 ≤ c → c < j →
      (sdot s.b k c : ℚ) = ∑ t ∈ Icc 1 c, s.lam k t * Lx s.lam s.d c t * 𝔴[s] t) :
    ∃ u, uVal s k j = some u ∧
      (u : ℚ) = s.d (j - 1) * (sdot s.b k j - ∑ t ∈ Icc 1 (j - 1), s.lam k t * s.lam j t * 𝔴[s] t) := by
  have tr : ∀ (x : ℕ → ℚ) (c t N : ℕ), 1 ≤ c → c ≤ t → t ≤ N → N ≤ k - 1 →
      ∑ i ∈ Icc 1 N, x i * Lx s.lam s.d c i * 𝔴[s] i = ∑ i ∈ Icc 1 t, x i * Lx s.lam s.d c i * 𝔴[s] i := by
    intro x c t N h1 h2 h3 h4
    apply sum_trunc h3
    intro i hi hi'
    rw [h.up c i h1 (by omega) (by omega)]; ring
  have key : ∀ t, t ≤ j - 1 → ∃ u : ℤ, (List.range' 1 t).foldlM (uStep s k j) (sdot s.b k j) = some u ∧
      (u : ℚ) = s.d t * (sdot s.b k j - ∑ i ∈ Icc 1 t, s.lam k i * s.lam j i * 𝔴[s] i) := by
    intro t
    induction t with
    | zero =>
      intro _
      refine ⟨sdot s.b k j, by simp, ?_⟩
      have : (s.d 0 : ℚ) = 1 := h.d0
      simp [this]
    | succ t ih =>
      intro ht
      obtain ⟨u, hu, hu'⟩ := ih (by omega)
      have hdt := h.dpos (i := t) (by omega)
      have hdt1 := h.dpos (i := t + 1) (by omega)
      have qt : (0 : ℚ) < s.d t := by exact_mod_cast hdt
      have qt1 : (0 : ℚ) < s.d (t + 1) := by exact_mod_cast hdt1
      obtain ⟨z, hz⟩ := integral (t + 1) (Lx s.lam s.d) (fun i => (s.d i : ℚ))
        (fun i => s.lam k i) (fun i => s.lam j i) (sdot s.b k j) h.d0
        (fun i hi => (h.pos i (by omega)).ne') (fun i h1 h2 => h.diag i h1 (by omega))
        (fun i a h1 h2 h3 => h.up i a h1 (by omega) h3)
        (fun a b h1 h2 h3 h4 => ⟨sdot s.b a b, by
          rw [h.eq a b h1 (by omega) h3 (by omega)]
          exact (tr _ b (t + 1) (k - 1) h3 h4 (by omega) le_rfl).symm⟩)
        (fun c h1 h2 => ⟨sdot s.b k c, by
          rw [H c h1 (by omega)]
          exact tr _ c c (t + 1) h1 le_rfl h2 (by omega)⟩)
        (fun c h1 h2 => ⟨sdot s.b j c, by
          by_cases hjk' : j = k
          · subst hjk'
            rw [H c h1 (by omega)]
            exact tr _ c c (t + 1) h1 le_rfl h2 (by omega)
          · rw [h.eq j c (by omega) (by omega) h1 (by omega)]
            rw [tr (fun i => Lx s.lam s.d j i) c (t + 1) (k - 1) h1 h2 (by omega) le_rfl]
            apply Finset.sum_congr rfl
            intro i hi
            simp at hi
            congr 2
            simp only [Lx]; rw [if_pos (by omega)]⟩)
      have hstep : (s.d (t + 1) * u - s.lam k (t + 1) * s.lam j (t + 1)).fdiv (s.d t) = z := by
        apply fdiv_exact _ _ _ hdt.ne'
        rw [← hz]
        push_cast
        rw [hu', Finset.sum_Icc_succ_top (by omega)]
        have : 𝔴[s] (t + 1) = 1 / (s.d (t + 1) * s.d t) := by simp [wt]
        rw [this]
        field_simp
        ring
      refine ⟨z, ?_, ?_⟩
      · rw [List.range'_1_concat, List.foldlM_append, hu]
        simp only [Option.bind_eq_bind, Option.bind_some, List.foldlM_cons, List.foldlM_nil, uStep]
        rw [show 1 + t - 1 = t by omega, if_neg hdt.ne', show 1 + t = t + 1 by omega, hstep]
        rfl
      · rw [← hz]
  exact key (j - 1) le_rfl

theorem lamSteps_spec {k : ℕ} {s : St m} (hk : 1 ≤ k) (h : Inv s (k - 1)) (t : ℕ) (ht : t ≤ k - 1) :
    ∃ s', (List.range' 1 t).foldlM (lamStep k) s = some s' ∧ s'.b = s.b ∧ s'.d = s.d
      ∧ (∀ i c, i ≠ k → s'.lam i c = s.lam i c)
      ∧ (∀ c, 1 ≤ c → c ≤ t →
        (sdot s.b k c : ℚ) = ∑ i ∈ Icc 1 c, s'.lam k i * Lx s.lam s.d c i * 𝔴[s] i) := by
  induction t with
  | zero => exact ⟨s, by simp, rfl, rfl, fun _ _ _ => rfl, fun c h1 h2 => by omega⟩
  | succ t ih =>
    obtain ⟨s1, h1, h2, h3, h4, h5⟩ := ih (by omega)
    have hLx : ∀ c i, c ≠ k → Lx s1.lam s1.d c i = Lx s.lam s.d c i := by
      intro c i hc; simp only [Lx, h3, h4 c i hc]
    have hw : 𝔴[s1] = 𝔴[s] := by simp only [h3]
    have hInv : Inv s1 (k - 1) := by
      apply Inv.mk'
      · rw [h3]; have := h.d0; exact_mod_cast this
      · rw [h3]; exact fun i hi => h.dpos hi
      · intro i j hi hi' hj hj'
        rw [h2, h.eq i j hi hi' hj hj']
        apply Finset.sum_congr rfl
        intro x _
        rw [hLx i x (by omega), hLx j x (by omega), h3]
    obtain ⟨u, hu, hu'⟩ := uVal_spec (j := t + 1) hk hInv (by omega) (by omega) (by
      intro c hc hc'
      rw [h2, h5 c hc (by omega)]
      apply Finset.sum_congr rfl
      intro x _
      rw [hLx c x (by omega), hw])
    refine ⟨{ s1 with lam := setL s1.lam k (t + 1) u }, ?_, h2, h3, ?_, ?_⟩
    · rw [List.range'_1_concat, List.foldlM_append, h1]
      simp only [Option.bind_eq_bind, Option.bind_some, List.foldlM_cons, List.foldlM_nil, lamStep]
      rw [show 1 + t = t + 1 by omega, hu]; rfl
    · intro i c hi
      simp only [setL]; rw [if_neg (by omega)]; exact h4 i c hi
    · intro c hc hc'
      by_cases hct : c = t + 1
      · subst hct
        rw [sum_top (by omega)]
        have hdt := h.dpos (i := t) (by omega)
        have hdt1 := h.dpos (i := t + 1) (by omega)
        have qt : (0 : ℚ) < s.d t := by exact_mod_cast hdt
        have qt1 : (0 : ℚ) < s.d (t + 1) := by exact_mod_cast hdt1
        have : ∑ i ∈ Icc 1 (t + 1 - 1), (setL s1.lam k (t + 1) u k i : ℚ) * Lx s.lam s.d (t + 1) i
            * 𝔴[s] i = ∑ i ∈ Icc 1 t, s1.lam k i * s1.lam (t + 1) i * 𝔴[s1] i := by
          apply Finset.sum_congr (by simp)
          intro i hi
          simp at hi
          have e1 : setL s1.lam k (t + 1) u k i = s1.lam k i := by
            simp only [setL]; rw [if_neg (by omega)]
          have e2 : Lx s.lam s.d (t + 1) i = s1.lam (t + 1) i := by
            simp only [Lx]; rw [if_pos (by omega), h4 (t + 1) i (by omega)]
          rw [e1, e2, hw]
        simp only at this ⊢
        rw [this]
        have e3 : setL s1.lam k (t + 1) u k (t + 1) = u := by simp [setL]
        have e4 : Lx s.lam s.d (t + 1) (t + 1) = s.d (t + 1) := by simp [Lx]
        have e5 : 𝔴[s] (t + 1) = 1 / (s.d (t + 1) * s.d t) := by simp [wt]
        rw [e3, hu', e4, e5, h2, h3]
        simp only [Nat.add_sub_cancel]
        field_simp
        ring
      · rw [h5 c hc (by omega)]
        apply Finset.sum_congr rfl
        intro i hi
        simp at hi
        have e1 : setL s1.lam k (t + 1) u k i = s1.lam k i := by
          simp only [setL]; rw [if_neg (by omega)]
        simp only [e1]

theorem step2_spec {n k : ℕ} {s : St m} (hk : 1 ≤ k) (hkn : k ≤ n) (h : Inv s (k - 1)) :
    ∃ s1 u, step2 n k s = some (if u = 0 then (true, s1)
        else (false, { s1 with d := Function.update s1.d k u })) ∧ s1.b = s.b ∧ s1.d = s.d
      ∧ (∀ i c, i ≠ k → s1.lam i c = s.lam i c)
      ∧ (∀ c, 1 ≤ c → c ≤ k - 1 →
        (sdot s.b k c : ℚ) = ∑ i ∈ Icc 1 c, s1.lam k i * Lx s.lam s.d c i * 𝔴[s] i)
      ∧ (u : ℚ) = s.d (k - 1) * (sdot s.b k k
          - ∑ t ∈ Icc 1 (k - 1), s1.lam k t * s1.lam k t * 𝔴[s] t) := by
  obtain ⟨s1, h1, h2, h3, h4, h5⟩ := lamSteps_spec hk h (k - 1) le_rfl
  have hLx : ∀ c i, c ≠ k → Lx s1.lam s1.d c i = Lx s.lam s.d c i := by
    intro c i hc; simp only [Lx, h3, h4 c i hc]
  have hw : 𝔴[s1] = 𝔴[s] := by simp only [h3]
  have hInv : Inv s1 (k - 1) := by
    apply Inv.mk'
    · rw [h3]; have := h.d0; exact_mod_cast this
    · rw [h3]; exact fun i hi => h.dpos hi
    · intro i j hi hi' hj hj'
      rw [h2, h.eq i j hi hi' hj hj']
      apply Finset.sum_congr rfl
      intro x _
      rw [hLx i x (by omega), hLx j x (by omega), h3]
  obtain ⟨u, hu, hu'⟩ := uVal_spec (j := k) hk hInv (by omega) le_rfl (by
    intro c hc hc'
    rw [h2, h5 c hc (by omega)]
    apply Finset.sum_congr rfl
    intro x _
    rw [hLx c x (by omega), hw])
  refine ⟨s1, u, ?_, h2, h3, h4, h5, ?_⟩
  · unfold step2
    rw [if_neg (by omega), h1]
    simp only [Option.bind_some, hu, Option.map_some]
  · rw [hu', h2, h3]

/-- `step2` with a positive last entry gives the decomposition for one more vector. -/
theorem step2_inv {k : ℕ} {s s1 : St m} {u : ℤ} (hk : 1 ≤ k) (h : Inv s (k - 1)) (hu : 0 < u)
    (hb : s1.b = s.b) (hd : s1.d = s.d) (hl : ∀ i c, i ≠ k → s1.lam i c = s.lam i c)
    (H : ∀ c, 1 ≤ c → c ≤ k - 1 →
        (sdot s.b k c : ℚ) = ∑ i ∈ Icc 1 c, s1.lam k i * Lx s.lam s.d c i * 𝔴[s] i)
    (hu' : (u : ℚ) = s.d (k - 1) * (sdot s.b k k
          - ∑ t ∈ Icc 1 (k - 1), s1.lam k t * s1.lam k t * 𝔴[s] t)) :
    Inv { s1 with d := Function.update s1.d k u } k := by
  obtain ⟨s2, hs2⟩ : ∃ s2 : St m, s2 = { s1 with d := Function.update s1.d k u } := ⟨_, rfl⟩
  rw [← hs2]
  have hdk : s2.d k = u := by rw [hs2]; simp
  have hdi : ∀ i, i ≠ k → s2.d i = s.d i := by intro i hi; rw [hs2]; simp [hi, hd]
  have hlam : s2.lam = s1.lam := by rw [hs2]
  have hb2 : s2.b = s.b := by rw [hs2]; exact hb
  have hLx : ∀ c i, c ≠ k → Lx s2.lam s2.d c i = Lx s.lam s.d c i := by
    intro c i hc; simp only [Lx, hlam, hdi c hc, hl c i hc]
  have hLk : ∀ i, i < k → Lx s2.lam s2.d k i = s1.lam k i := by
    intro i hi; simp only [Lx, hlam]; rw [if_pos hi]
  have hw : ∀ i, i ≠ k → i ≠ k + 1 → 𝔴[s2] i = 𝔴[s] i := by
    intro i h1 h2; simp only [wt]; rw [hdi i h1, hdi (i - 1) (by omega)]
  have hc0 : ∀ c, 1 ≤ c → c ≤ k - 1 → Lx s2.lam s2.d c k = 0 := by
    intro c h1 h2; simp only [Lx]; rw [if_neg (by omega), if_neg (by omega)]
  have Hkc : ∀ c, 1 ≤ c → c ≤ k - 1 → (sdot s.b k c : ℚ)
      = ∑ t ∈ Icc 1 k, Lx s2.lam s2.d k t * Lx s2.lam s2.d c t * 𝔴[s2] t := by
    intro c hc hc'
    rw [H c hc hc', sum_trunc (t := c) (N := k) (by omega)]
    · apply Finset.sum_congr rfl
      intro t ht
      simp at ht
      rw [hLk t (by omega), hLx c t (by omega), hw t (by omega) (by omega)]
    · intro t ht ht'
      have : Lx s2.lam s2.d c t = 0 := by
        simp only [Lx]; rw [if_neg (by omega), if_neg (by omega)]
      rw [this]; ring
  have q1 := h.dpos (i := k - 1) le_rfl
  have q1' : (0 : ℚ) < s.d (k - 1) := by exact_mod_cast q1
  have qu : (0 : ℚ) < u := by exact_mod_cast hu
  apply Inv.mk'
  · rw [hdi 0 (by omega)]; have := h.d0; exact_mod_cast this
  · intro i hi
    by_cases hik : i = k
    · rw [hik, hdk]; exact hu
    · rw [hdi i hik]; exact h.dpos (by omega)
  · intro i j hi hi' hj hj'
    rw [hb2]
    by_cases hik : i = k <;> by_cases hjk : j = k
    · rw [hik, hjk, sum_top hk]
      have e : ∑ t ∈ Icc 1 (k - 1), Lx s2.lam s2.d k t * Lx s2.lam s2.d k t * 𝔴[s2] t
          = ∑ t ∈ Icc 1 (k - 1), s1.lam k t * s1.lam k t * 𝔴[s] t := by
        apply Finset.sum_congr rfl
        intro t ht
        simp at ht
        rw [hLk t (by omega), hw t (by omega) (by omega)]
      rw [e]
      have e2 : Lx s2.lam s2.d k k = u := by simp [Lx, hdk]
      have e3 : 𝔴[s2] k = 1 / (u * s.d (k - 1)) := by
        simp only [wt]; rw [hdk, hdi (k - 1) (by omega)]
      rw [e2, e3]
      have : (sdot s.b k k : ℚ) - ∑ t ∈ Icc 1 (k - 1), s1.lam k t * s1.lam k t * 𝔴[s] t
          = u / s.d (k - 1) := by rw [hu']; field_simp
      rw [← sub_eq_iff_eq_add', this]
      field_simp
    · rw [hik]; exact Hkc j hj (by omega)
    · rw [hjk, sdot_comm, Hkc i hi (by omega)]
      apply Finset.sum_congr rfl
      intro t _; ring
    · rw [h.eq i j hi (by omega) hj (by omega), sum_top hk, hc0 i hi (by omega)]
      rw [zero_mul, zero_mul, add_zero]
      apply Finset.sum_congr rfl
      intro t ht
      simp at ht
      rw [hLx i t hik, hLx j t hjk]
      have := hw t (by omega) (by omega)
      rw [this]

end Eclib.Lll
