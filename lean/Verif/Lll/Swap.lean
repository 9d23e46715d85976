import Verif.Lll.Steps

/-!
# `swapi` keeps the triangular decomposition
-/

namespace Eclib.Lll

open Finset

variable {m : ℕ}

theorem fdiv_exact (a b z : ℤ) (hb : b ≠ 0) (h : (a : ℚ) / b = z) : a.fdiv b = z := by
  have hb' : (b : ℚ) ≠ 0 := by exact_mod_cast hb
  have : (a : ℚ) = b * z := by rw [← h]; field_simp
  have h2 : a = b * z := by exact_mod_cast this
  rw [h2, Int.mul_fdiv_cancel_left _ hb]

theorem sum_two (S : Finset ℕ) (f g : ℕ → ℚ) (a b : ℕ) (ha : a ∈ S) (hb : b ∈ S) (hab : a ≠ b)
    (h : ∀ s ∈ S, s ≠ a → s ≠ b → f s = g s) (h2 : f a + f b = g a + g b) :
    ∑ s ∈ S, f s = ∑ s ∈ S, g s := by
  have e : ∀ f : ℕ → ℚ, ∑ s ∈ S, f s = f a + f b + ∑ s ∈ (S.erase a).erase b, f s := by
    intro f
    rw [← Finset.add_sum_erase S f ha, ← Finset.add_sum_erase (S.erase a) f (a := b) (by
      simp [hb, hab.symm])]
    ring
  rw [e f, e g, h2]
  congr 1
  apply Finset.sum_congr rfl
  intro s hs
  simp at hs
  exact h s hs.2.2 hs.2.1 hs.1

theorem swap_alg (D2 D1 D0 l b x y x2 y2 : ℚ) (h2 : 0 < D2) (h1 : 0 < D1) (h0 : 0 < D0)
    (hb : 0 < b) (e : b * D1 = D2 * D0 + l * l) :
    x * x2 * (1 / (D1 * D2)) + y * y2 * (1 / (D0 * D1))
      = (D2 * y + l * x) / D1 * ((D2 * y2 + l * x2) / D1) * (1 / (b * D2))
        + (D0 * x - l * y) / D1 * ((D0 * x2 - l * y2) / D1) * (1 / (D0 * b)) := by
  have e1 : x * x2 * (1 / (D1 * D2)) + y * y2 * (1 / (D0 * D1))
      = (D0 * x * x2 + D2 * y * y2) * (b * D1) / (D1 * D1 * b * D2 * D0) := by field_simp
  have e2 : (D2 * y + l * x) / D1 * ((D2 * y2 + l * x2) / D1) * (1 / (b * D2))
        + (D0 * x - l * y) / D1 * ((D0 * x2 - l * y2) / D1) * (1 / (D0 * b))
      = (D0 * x * x2 + D2 * y * y2) * (D2 * D0 + l * l) / (D1 * D1 * b * D2 * D0) := by
    field_simp; ring
  rw [e1, e2, e]

theorem swap_alg2 (D2 D1 D0 l b x t : ℚ) (h1 : 0 < D1) (h0 : 0 < D0)
    (e : b * D1 = D2 * D0 + l * l) :
    (b * t + l * ((D0 * x - l * t) / D1)) / D0 = (D2 * t + l * x) / D1 := by
  have : b = (D2 * D0 + l * l) / D1 := by field_simp; linarith
  rw [this]; field_simp; ring

/-- The transposition of `k-1` and `k`. -/
def tp (k i : ℕ) : ℕ := if i = k - 1 then k else if i = k then k - 1 else i

theorem swapi_inv {n k N : ℕ} {s : St m} (hk : 2 ≤ k) (hkN : k ≤ N) (hNn : N ≤ n)
    (h : Inv s N) :
    ∃ s', swapi n k N s = some s' ∧ Inv s' N ∧ (∀ i, i ≠ k - 1 → s'.d i = s.d i)
      ∧ s'.d (k - 1) * s.d (k - 1) = s.d (k - 2) * s.d k + s.lam k (k - 1) * s.lam k (k - 1)
      ∧ (∀ i, s'.b i = s.b (tp k i))
      ∧ (∀ i j, i < k - 1 → s'.lam i j = s.lam i j) := by
  have hkk : k - 1 ≠ k := by omega
  have hkk' : k ≠ k - 1 := by omega
  have hd2 := h.dpos (i := k - 2) (by omega)
  have hd1 := h.dpos (i := k - 1) (by omega)
  have hd0 := h.dpos (i := k) (by omega)
  have q2 : (0 : ℚ) < s.d (k - 2) := by exact_mod_cast hd2
  have q1 : (0 : ℚ) < s.d (k - 1) := by exact_mod_cast hd1
  have q0 : (0 : ℚ) < s.d k := by exact_mod_cast hd0
  have hlm : swapLoop k s.lam k (k - 1) = s.lam k (k - 1) := by
    rw [swapLoop_apply k hk, if_neg (by omega)]
  obtain ⟨lm, hlmdef⟩ : ∃ lm, lm = s.lam k (k - 1) := ⟨_, rfl⟩
  obtain ⟨bb, hbb⟩ : ∃ bb, bb = (s.d (k - 2) * s.d k + lm * lm).fdiv (s.d (k - 1)) := ⟨_, rfl⟩
  have hdef : swapi n k N s = some
        { b := Function.update (Function.update s.b (k - 1) (s.b k)) k (s.b (k - 1))
          lam := (List.range' (k + 1) (N - k)).foldl (swapRow k lm bb (s.d k) (s.d (k - 1)))
            (swapLoop k s.lam)
          d := Function.update s.d (k - 1) bb } := by
    simp only [swapi]
    rw [if_neg (by omega), if_neg hd1.ne', if_neg (by omega), hlm, ← hlmdef, ← hbb]
  obtain ⟨s', hs'⟩ : ∃ s' : St m, s' =
        { b := Function.update (Function.update s.b (k - 1) (s.b k)) k (s.b (k - 1))
          lam := (List.range' (k + 1) (N - k)).foldl (swapRow k lm bb (s.d k) (s.d (k - 1)))
            (swapLoop k s.lam)
          d := Function.update s.d (k - 1) bb } := ⟨_, rfl⟩
  rw [← hs'] at hdef
  have hb' : ∀ i, s'.b i = s.b (tp k i) := by
    intro i
    rw [hs']
    simp only [Function.update_apply, tp]
    by_cases h1 : i = k
    · subst h1; simp [hkk']
    · by_cases h2 : i = k - 1
      · simp [h2, hkk]
      · simp [h1, h2]
  have htp : ∀ i, 1 ≤ i → i ≤ N → 1 ≤ tp k i ∧ tp k i ≤ N := by
    intro i h1 h2; unfold tp; split_ifs <;> omega
  have hsd : ∀ i j, sdot s'.b i j = sdot s.b (tp k i) (tp k j) := by
    intro i j
    unfold sdot
    have : tp k 0 = 0 := by unfold tp; rw [if_neg (by omega), if_neg (by omega)]
    rw [hb' 0, hb' i, hb' j, this]
  -- the exact values
  let L := Lx s.lam s.d
  let bq : ℚ := (s.d (k - 2) * s.d k + lm * lm) / s.d (k - 1)
  have hbq : bq * s.d (k - 1) = s.d (k - 2) * s.d k + lm * lm := by
    simp only [bq]; field_simp
  have hbqpos : 0 < bq := by
    simp only [bq]
    apply div_pos _ q1
    have := mul_pos q2 q0
    nlinarith [mul_self_nonneg (lm : ℚ)]
  let d' : ℕ → ℚ := fun i => if i = k - 1 then bq else s.d i
  let L' : ℕ → ℕ → ℚ := fun i t =>
    if t = k - 1 then (s.d (k - 2) * L (tp k i) k + lm * L (tp k i) (k - 1)) / s.d (k - 1)
    else if t = k then (s.d k * L (tp k i) (k - 1) - lm * L (tp k i) k) / s.d (k - 1)
    else L (tp k i) t
  have Lk : L k (k - 1) = lm := by simp only [L, Lx]; rw [if_pos (by omega), hlmdef]
  have Lkk : L k k = s.d k := by simp [L, Lx]
  have L1 : L (k - 1) (k - 1) = s.d (k - 1) := by simp [L, Lx]
  have L1k : L (k - 1) k = 0 := by simp only [L, Lx]; rw [if_neg (by omega), if_neg (by omega)]
  have Lup : ∀ i t, i < t → L i t = 0 := by
    intro i t h; simp only [L, Lx]; rw [if_neg (by omega), if_neg (by omega)]
  have tp1 : tp k (k - 1) = k := by simp [tp]
  have tpk : tp k k = k - 1 := by simp [tp, hkk']
  have tpo : ∀ i, i ≠ k - 1 → i ≠ k → tp k i = i := by intro i h1 h2; simp [tp, h1, h2]
  have hDec : Dec (sdot s'.b) N L' d' := by
    refine ⟨?_, ?_, ?_, ?_, ?_⟩
    · simp only [d']; rw [if_neg (by omega)]; exact h.d0
    · intro i hi
      simp only [d']
      split_ifs with h1
      · exact hbqpos
      · exact h.pos i hi
    · intro i hi hi'
      simp only [L', d']
      by_cases h1 : i = k - 1
      · subst h1
        rw [if_pos rfl, if_pos rfl, tp1, Lkk, Lk]
      · rw [if_neg h1, if_neg h1]
        by_cases h2 : i = k
        · subst h2
          rw [if_pos rfl, tpk, L1, L1k]; field_simp; ring
        · rw [if_neg h2, tpo i h1 h2]; simp [L, Lx]
    · intro i t hi hi' hit
      simp only [L']
      by_cases h1 : t = k - 1
      · have : tp k i = i := tpo i (by omega) (by omega)
        rw [if_pos h1, this, Lup i k (by omega), Lup i (k - 1) (by omega)]; simp
      · rw [if_neg h1]
        by_cases h2 : t = k
        · rw [if_pos h2]
          by_cases h3 : i = k - 1
          · subst h3; rw [tp1, Lk, Lkk]; ring_nf
          · have : tp k i = i := tpo i h3 (by omega)
            rw [this, Lup i k (by omega), Lup i (k - 1) (by omega)]; simp
        · rw [if_neg h2]
          apply Lup
          unfold tp; split_ifs <;> omega
    · intro i j hi hi' hj hj'
      rw [hsd, h.eq _ _ (htp i hi hi').1 (htp i hi hi').2 (htp j hj hj').1 (htp j hj hj').2]
      apply sum_two (Icc 1 N) _ _ (k - 1) k (by simp; omega) (by simp; omega) hkk
      · intro t ht h1 h2
        simp only [L', if_neg h1, if_neg h2, L]
        congr 1
        simp only [wt, d']
        rw [if_neg h1]
        by_cases h3 : t - 1 = k - 1
        · simp at ht; omega
        · rw [if_neg h3]
      · have w1 : wt d' (k - 1) = 1 / (bq * s.d (k - 2)) := by
          simp only [wt, d', if_true]
          rw [if_neg (by omega), show k - 1 - 1 = k - 2 by omega]
        have w0 : wt d' k = 1 / (s.d k * bq) := by
          simp only [wt, d', if_true]
          rw [if_neg hkk']
        have v1 : wt (fun i => (s.d i : ℚ)) (k - 1) = 1 / (s.d (k - 1) * s.d (k - 2)) := by
          simp only [wt]
          rw [show k - 1 - 1 = k - 2 by omega]
        have v0 : wt (fun i => (s.d i : ℚ)) k = 1 / (s.d k * s.d (k - 1)) := by
          simp only [wt]
        rw [w1, w0, v1, v0]
        simp only [L', if_true, if_neg hkk']
        exact swap_alg _ _ _ _ _ _ _ _ _ q2 q1 q0 hbqpos hbq
  -- the divisions are exact
  have hbbq : (bb : ℚ) = bq := by
    obtain ⟨z, hz⟩ := hDec.int (i := k - 1) (j := k - 1) (by omega) le_rfl (by omega)
    rw [hDec.diag (k - 1) (by omega) (by omega)] at hz
    simp only [d', if_true] at hz
    have := fdiv_exact (s.d (k - 2) * s.d k + lm * lm) (s.d (k - 1)) z hd1.ne' (by
      push_cast; exact hz)
    rw [hbb, this, ← hz]
  have hd' : (fun i => (s'.d i : ℚ)) = d' := by
    funext i
    rw [hs']
    simp only [Function.update_apply, d']
    split_ifs with h1
    · exact hbbq
    · rfl
  have hlam' : ∀ i t, s'.lam i t = if k < i ∧ i ≤ N then
          (if t = k - 1 then (bb * s.lam i k + lm * (s.d k * s.lam i (k - 1)
              - lm * s.lam i k).fdiv (s.d (k - 1))).fdiv (s.d k)
           else if t = k then (s.d k * s.lam i (k - 1) - lm * s.lam i k).fdiv (s.d (k - 1))
           else s.lam i t)
        else swapLoop k s.lam i t := by
    intro i t
    rw [hs']
    simp only [foldl_swapRow k hk]
    by_cases hi : k < i ∧ i ≤ N
    · have e : ∀ t, swapLoop k s.lam i t = s.lam i t := by
        intro t
        rw [swapLoop_apply k hk]
        split_ifs <;> first | rfl | omega
      rw [if_pos (by omega), if_pos hi, e, e, e]
    · rw [if_neg (by omega), if_neg hi]
  have hLx : ∀ i t, 1 ≤ i → i ≤ N → 1 ≤ t → Lx s'.lam s'.d i t = L' i t := by
    intro i t hi hiN ht
    rcases lt_trichotomy i t with hit | rfl | hit
    · rw [hDec.up i t hi hiN hit]
      simp only [Lx]; rw [if_neg (by omega), if_neg (by omega)]
    · rw [hDec.diag i hi hiN, ← hd']; simp [Lx]
    · have e1 : Lx s'.lam s'.d i t = s'.lam i t := by simp only [Lx]; rw [if_pos hit]
      rw [e1, hlam']
      by_cases hki : k < i ∧ i ≤ N
      · rw [if_pos hki]
        have hti : tp k i = i := tpo i (by omega) (by omega)
        have a1 : L i (k - 1) = s.lam i (k - 1) := by simp only [L, Lx]; rw [if_pos (by omega)]
        have a0 : L i k = s.lam i k := by simp only [L, Lx]; rw [if_pos (by omega)]
        have c0 : L' i k = (s.d k * s.lam i (k - 1) - lm * s.lam i k) / s.d (k - 1) := by
          simp only [L', if_neg hkk', if_true, hti, a0, a1]
        have c1 : L' i (k - 1) = (s.d (k - 2) * s.lam i k + lm * s.lam i (k - 1)) / s.d (k - 1) := by
          simp only [L', if_true, hti, a0, a1]
        have hx : (((s.d k * s.lam i (k - 1) - lm * s.lam i k).fdiv (s.d (k - 1)) : ℤ) : ℚ)
            = L' i k := by
          obtain ⟨z, hz⟩ := hDec.int (i := i) (j := k) (by omega) (by omega) hiN
          rw [hz, fdiv_exact _ _ z hd1.ne']
          push_cast
          rw [← hz, c0]
        by_cases h1 : t = k - 1
        · rw [if_pos h1, h1]
          obtain ⟨z, hz⟩ := hDec.int (i := i) (j := k - 1) (by omega) (by omega) hiN
          rw [hz, fdiv_exact _ _ z hd0.ne']
          push_cast
          rw [hx, ← hz, c0, c1, hbbq]
          exact swap_alg2 _ _ _ _ _ _ _ q1 q0 hbq
        · rw [if_neg h1]
          by_cases h2 : t = k
          · rw [if_pos h2, h2]; exact hx
          · rw [if_neg h2]
            simp only [L']
            rw [if_neg h1, if_neg h2, hti]
            simp only [L, Lx]; rw [if_pos hit]
      · rw [if_neg hki, swapLoop_apply k hk]
        have hik : i ≤ k := by omega
        by_cases h1 : t = k - 1
        · have hi : i = k := by omega
          rw [if_neg (by omega)]
          simp only [L']
          rw [if_pos h1, hi, tpk, L1, L1k, h1, ← hlmdef]; field_simp; ring
        · simp only [L']
          rw [if_pos (by omega), if_neg h1, if_neg (show ¬ t = k by omega)]
          by_cases h2 : i = k
          · rw [if_pos h2, h2, tpk]; simp only [L, Lx]; rw [if_pos (by omega)]
          · rw [if_neg h2]
            by_cases h3 : i = k - 1
            · rw [if_pos h3, h3, tp1]; simp only [L, Lx]; rw [if_pos (by omega)]
            · rw [if_neg h3, tpo i h3 h2]; simp only [L, Lx]; rw [if_pos (by omega)]
  refine ⟨s', hdef, ?_, ?_, ?_, hb', ?_⟩
  · apply Inv.mk'
    · have this : (s'.d 0 : ℚ) = 1 := (congrFun hd' 0).trans hDec.d0
      exact_mod_cast this
    · intro i hi
      have this : (0 : ℚ) < s'.d i := lt_of_lt_of_eq (hDec.pos i hi) (congrFun hd' i).symm
      exact_mod_cast this
    · intro i j hi hi' hj hj'
      rw [hDec.eq i j hi hi' hj hj', hd']
      apply Finset.sum_congr rfl
      intro t ht
      simp at ht
      rw [hLx i t hi hi' ht.1, hLx j t hj hj' ht.1]
  · intro i hi
    rw [hs']; simp [hi]
  · have : s'.d (k - 1) = bb := by rw [hs']; simp
    rw [this]
    have : (bb : ℚ) * s.d (k - 1) = s.d (k - 2) * s.d k + lm * lm := by rw [hbbq, hbq]
    rw [← hlmdef]
    exact_mod_cast this
  · intro i j hi
    rw [hlam', if_neg (by omega), swapLoop_apply k hk]
    split_ifs <;> first | rfl | omega

end Eclib.Lll
