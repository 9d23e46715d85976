import Verif.Lll.Gram
import Mathlib.Algebra.Order.Ring.Abs

/-!
# The steps of the LLL algorithm keep the triangular decomposition
-/

namespace Eclib.Lll

open Finset

variable {m : ℕ}

/-! ## Closed forms of the inner loops -/

theorem rediLoop_apply (k l : ℕ) (q : ℤ) (lam : ℕ → ℕ → ℤ) (hkl : k ≠ l) (r c : ℕ) :
    rediLoop k l q lam r c
      = if r = k ∧ 1 ≤ c ∧ c < l then lam k c - q * lam l c else lam r c := by
  have key : ∀ t r c, (List.range' 1 t).foldl
      (fun lam i => setL lam k i (lam k i - q * lam l i)) lam r c
      = if r = k ∧ 1 ≤ c ∧ c ≤ t then lam k c - q * lam l c else lam r c := by
    intro t
    induction t with
    | zero => intro r c; have : ¬ (r = k ∧ 1 ≤ c ∧ c ≤ 0) := by omega
              simp
              intro _ h1 h2; omega
    | succ t ih =>
      intro r c
      rw [List.range'_1_concat, List.foldl_append]
      simp only [List.foldl_cons, List.foldl_nil, setL]
      rw [ih, ih, ih]
      by_cases h1 : r = k ∧ c = 1 + t
      · obtain ⟨rfl, rfl⟩ := h1
        have e1 : ¬ (r = r ∧ 1 ≤ 1 + t ∧ 1 + t ≤ t) := by omega
        have e2 : ¬ (l = r ∧ 1 ≤ 1 + t ∧ 1 + t ≤ t) := by omega
        have e3 : (r = r ∧ 1 ≤ 1 + t ∧ 1 + t ≤ t + 1) := by omega
        rw [if_neg e1, if_neg e2, if_pos e3]; simp
      · rw [if_neg h1]
        by_cases h2 : r = k ∧ 1 ≤ c ∧ c ≤ t
        · rw [if_pos h2, if_pos (by omega)]
        · rw [if_neg h2, if_neg (by omega)]
  unfold rediLoop
  rw [key]
  by_cases h : r = k ∧ 1 ≤ c ∧ c < l
  · rw [if_pos h, if_pos (by omega)]
  · rw [if_neg h, if_neg (by omega)]

theorem swapLoop_apply (k : ℕ) (hk : 2 ≤ k) (lam : ℕ → ℕ → ℤ) (r c : ℕ) :
    swapLoop k lam r c
      = if 1 ≤ c ∧ c ≤ k - 2 then
          (if r = k then lam (k - 1) c else if r = k - 1 then lam k c else lam r c)
        else lam r c := by
  have key : ∀ t r c, (List.range' 1 t).foldl
      (fun lam j => setL (setL lam k j (lam (k - 1) j)) (k - 1) j (lam k j)) lam r c
      = if 1 ≤ c ∧ c ≤ t then
          (if r = k then lam (k - 1) c else if r = k - 1 then lam k c else lam r c)
        else lam r c := by
    intro t
    induction t with
    | zero => intro r c; simp; intro h1 h2; omega
    | succ t ih =>
      intro r c
      rw [List.range'_1_concat, List.foldl_append]
      simp only [List.foldl_cons, List.foldl_nil, setL]
      rw [ih, ih, ih]
      have hkk : k - 1 ≠ k := by omega
      by_cases hc : c = 1 + t
      · subst hc
        have e1 : ¬ (1 ≤ 1 + t ∧ 1 + t ≤ t) := by omega
        have e3 : (1 ≤ 1 + t ∧ 1 + t ≤ t + 1) := by omega
        simp only [if_neg e1, if_pos e3, and_true]
        by_cases h1 : r = k - 1
        · subst h1; simp [hkk]
        · simp [h1]
      · have e1 : (1 ≤ c ∧ c ≤ t + 1) ↔ (1 ≤ c ∧ c ≤ t) := by omega
        simp [hc, e1]
  unfold swapLoop
  rw [key]

theorem foldl_swapRow (k : ℕ) (hk : 2 ≤ k) (lm bb dk dk1 : ℤ) (lam : ℕ → ℕ → ℤ) (t r c : ℕ) :
    (List.range' (k + 1) t).foldl (swapRow k lm bb dk dk1) lam r c
      = if k < r ∧ r ≤ k + t then
          (if c = k - 1 then (bb * lam r k + lm * (dk * lam r (k - 1) - lm * lam r k).fdiv dk1).fdiv dk
           else if c = k then (dk * lam r (k - 1) - lm * lam r k).fdiv dk1 else lam r c)
        else lam r c := by
  induction t generalizing r c with
  | zero => simp
  | succ t ih =>
    rw [List.range'_concat, List.foldl_append]
    simp only [List.foldl_cons, List.foldl_nil, swapRow, setL, one_mul]
    rw [ih, ih, ih]
    have hkk : k - 1 ≠ k := by omega
    by_cases hr : r = k + 1 + t
    · subst hr
      have e1 : ¬ (k < k + 1 + t ∧ k + 1 + t ≤ k + t) := by omega
      have e3 : (k < k + 1 + t ∧ k + 1 + t ≤ k + (t + 1)) := by omega
      simp only [if_neg e1, if_pos e3, true_and]
    · have e1 : (k < r ∧ r ≤ k + (t + 1)) ↔ (k < r ∧ r ≤ k + t) := by omega
      simp only [hr, e1, false_and, if_false]

/-! ## The decomposition -/

/-- `G = L W Lᵀ` for the indices `1..N`. -/
structure Dec (G : ℕ → ℕ → ℤ) (N : ℕ) (L : ℕ → ℕ → ℚ) (d : ℕ → ℚ) : Prop where
  d0 : d 0 = 1
  pos : ∀ i ≤ N, 0 < d i
  diag : ∀ i, 1 ≤ i → i ≤ N → L i i = d i
  up : ∀ i s, 1 ≤ i → i ≤ N → i < s → L i s = 0
  eq : ∀ i j, 1 ≤ i → i ≤ N → 1 ≤ j → j ≤ N →
    (G i j : ℚ) = ∑ s ∈ Icc 1 N, L i s * L j s * wt d s

theorem sum_trunc {f : ℕ → ℚ} {t N : ℕ} (htN : t ≤ N) (h : ∀ s, t < s → s ≤ N → f s = 0) :
    ∑ s ∈ Icc 1 N, f s = ∑ s ∈ Icc 1 t, f s := by
  symm
  apply Finset.sum_subset
  · intro x; simp; omega
  · intro x hx hx'
    simp at hx hx'
    exact h x (by omega) (by omega)

theorem sum_top {f : ℕ → ℚ} {j : ℕ} (hj : 1 ≤ j) :
    ∑ s ∈ Icc 1 j, f s = ∑ s ∈ Icc 1 (j - 1), f s + f j := by
  obtain ⟨t, rfl⟩ : ∃ t, j = t + 1 := ⟨j - 1, by omega⟩
  exact Finset.sum_Icc_succ_top (by omega) f

theorem Dec.int {G : ℕ → ℕ → ℤ} {N : ℕ} {L : ℕ → ℕ → ℚ} {d : ℕ → ℚ} (h : Dec G N L d)
    {i j : ℕ} (hj : 1 ≤ j) (hji : j ≤ i) (hi : i ≤ N) : ∃ z : ℤ, L i j = z := by
  have hne : ∀ i ≤ N, d i ≠ 0 := fun i hi => (h.pos i hi).ne'
  have tr : ∀ (x : ℕ → ℚ) (c : ℕ), 1 ≤ c → c ≤ j - 1 →
      ∑ s ∈ Icc 1 (j - 1), x s * L c s * wt d s = ∑ s ∈ Icc 1 N, x s * L c s * wt d s := by
    intro x c hc hc'
    symm
    apply sum_trunc (by omega)
    intro s hs hs'
    rw [h.up c s hc (by omega) (by omega)]; ring
  obtain ⟨n, hn⟩ := integral (j - 1) L d (L i) (L j) (G i j) h.d0 (fun i hi => hne i (by omega))
    (fun i h1 h2 => h.diag i h1 (by omega)) (fun i s h1 h2 h3 => h.up i s h1 (by omega) h3)
    (fun a b h1 h2 h3 h4 => ⟨G a b, by rw [tr _ _ h3 h4, h.eq a b h1 (by omega) h3 (by omega)]⟩)
    (fun c h1 h2 => ⟨G i c, by rw [tr _ _ h1 h2, h.eq i c (by omega) hi h1 (by omega)]⟩)
    (fun c h1 h2 => ⟨G j c, by rw [tr _ _ h1 h2, h.eq j c (by omega) (by omega) h1 (by omega)]⟩)
  refine ⟨n, ?_⟩
  rw [← hn, h.eq i j (by omega) hi hj (by omega), sum_trunc (t := j) (by omega) ?_, sum_top hj,
    h.diag j hj (by omega)]
  · have h1 := hne j (by omega)
    have h2 := hne (j - 1) (by omega)
    rw [add_sub_cancel_left]
    unfold wt
    field_simp
  · intro s hs hs'
    rw [h.up j s hj (by omega) hs]; ring

/-- The lower triangular matrix held in `lambda` and `d`. -/
def Lx (lam : ℕ → ℕ → ℤ) (d : ℕ → ℤ) (i s : ℕ) : ℚ :=
  if s < i then lam i s else if s = i then d i else 0

/-- The state holds the decomposition of the Gram matrix of `b[1..N]`. -/
def Inv (s : St m) (N : ℕ) : Prop :=
  Dec (sdot s.b) N (Lx s.lam s.d) (fun i => (s.d i : ℚ))

theorem Inv.dpos {s : St m} {N : ℕ} (h : Inv s N) {i : ℕ} (hi : i ≤ N) : 0 < s.d i := by
  have := h.pos i hi
  exact_mod_cast this

theorem Inv.mk' {s : St m} {N : ℕ} (h0 : s.d 0 = 1) (hp : ∀ i ≤ N, 0 < s.d i)
    (he : ∀ i j, 1 ≤ i → i ≤ N → 1 ≤ j → j ≤ N →
      (sdot s.b i j : ℚ) = ∑ t ∈ Icc 1 N, Lx s.lam s.d i t * Lx s.lam s.d j t
        * wt (fun i => (s.d i : ℚ)) t) : Inv s N where
  d0 := by simp [h0]
  pos := fun i hi => by have := hp i hi; exact_mod_cast this
  diag := fun i _ _ => by simp [Lx]
  up := fun i t _ _ h => by simp [Lx]; rw [if_neg (by omega), if_neg (by omega)]
  eq := he

/-! ## `nearest` -/

theorem nearest_spec (a b : ℤ) (hb : 0 < b) : 2 * |a - nearest a b * b| ≤ b := by
  have h1 : b * a.fdiv b + a.fmod b = a := Int.mul_fdiv_add_fmod a b
  have h2 := Int.fmod_nonneg_of_pos a hb
  have h3 := Int.fmod_lt_of_pos a hb
  have e : (a - a.fmod b).fdiv b = a.fdiv b := by
    have : a - a.fmod b = b * a.fdiv b := by omega
    rw [this, Int.mul_fdiv_cancel_left _ hb.ne']
  have key : |a - nearest a b * b| * 2 ≤ b := by
    unfold nearest
    simp only [e]
    split_ifs with h
    · have : a - (a.fdiv b + 1) * b = a.fmod b - b := by linear_combination -h1
      rw [this, abs_of_nonpos (by omega)]; omega
    · have : a - a.fdiv b * b = a.fmod b := by linear_combination -h1
      rw [this, abs_of_nonneg h2]; omega
  omega

/-! ## `redi` -/

theorem redi_eq {n k l : ℕ} {s : St m} {q : ℤ} (hl : 1 ≤ l) (hlk : l < k) (hkn : k ≤ n)
    (hd : s.d l ≠ 0) (hq : q = nearest (s.lam k l) (s.d l)) :
    ∃ s', redi n k l s = some s' ∧ s'.d = s.d
      ∧ (∀ i, i ≠ k → s'.b i = s.b i) ∧ s'.b k = s.b k - q • s.b l
      ∧ (∀ i j, i ≠ k → s'.lam i j = s.lam i j) ∧ (∀ j, l < j → s'.lam k j = s.lam k j)
      ∧ s'.lam k l = s.lam k l - q * s.d l
      ∧ (∀ j, 1 ≤ j → j < l → s'.lam k j = s.lam k j - q * s.lam l j) := by
  unfold redi
  rw [if_neg (by omega), if_neg hd]
  simp only [← hq]
  by_cases h0 : q = 0
  · rw [if_pos h0]
    refine ⟨s, rfl, rfl, fun _ _ => rfl, ?_, fun _ _ _ => rfl, fun _ _ => rfl, ?_, ?_⟩
    · simp [h0]
    · simp [h0]
    · simp [h0]
  · rw [if_neg h0]
    refine ⟨_, rfl, rfl, ?_, ?_, ?_, ?_, ?_, ?_⟩
    · intro i hi; simp [hi]
    · simp
    · intro i j hi
      simp only [rediLoop_apply k l q _ (by omega : k ≠ l), setL]
      rw [if_neg (by omega), if_neg (by omega)]
    · intro j hj
      simp only [rediLoop_apply k l q _ (by omega : k ≠ l), setL]
      rw [if_neg (by omega), if_neg (by omega)]
    · simp only [rediLoop_apply k l q _ (by omega : k ≠ l), setL]
      simp
    · intro j hj hjl
      simp only [rediLoop_apply k l q _ (by omega : k ≠ l), setL]
      have e1 : j ≠ l := by omega
      have e2 : l ≠ k := by omega
      simp [e1, e2, hj, hjl]

theorem sdot_comm (b : ℕ → Fin m → ℤ) (i j : ℕ) : sdot b i j = sdot b j i := by
  unfold sdot; apply Finset.sum_congr rfl; intro k _; ring

theorem redi_inv {n k l N : ℕ} {s : St m} (hl : 1 ≤ l) (hlk : l < k) (hkN : k ≤ N) (hNn : N ≤ n)
    (h : Inv s N) :
    ∃ s', redi n k l s = some s' ∧ Inv s' N ∧ s'.d = s.d
      ∧ (∀ i, i ≠ k → s'.b i = s.b i) 
      ∧ (∀ i j, i ≠ k → s'.lam i j = s.lam i j) ∧ (∀ j, l < j → s'.lam k j = s.lam k j)
      ∧ 2 * |s'.lam k l| ≤ s'.d l := by
  have hd := h.dpos (i := l) (by omega)
  obtain ⟨s', h1, h2, h3, h4, h5, h6, h7, h8⟩ :=
    redi_eq (n := n) (s := s) hl hlk (by omega) hd.ne' rfl
  refine ⟨s', h1, ?_, h2, h3, h5, h6, ?_⟩
  · set q := nearest (s.lam k l) (s.d l)
    have hLx : ∀ i t, 1 ≤ t → Lx s'.lam s'.d i t
        = if i = k then Lx s.lam s.d k t - q * Lx s.lam s.d l t else Lx s.lam s.d i t := by
      intro i t ht
      by_cases hi : i = k
      · subst hi
        simp only [if_true, Lx, h2]
        rcases lt_trichotomy t l with ht' | rfl | ht'
        · rw [if_pos (by omega), if_pos (by omega), if_pos ht', h8 t ht ht']; push_cast; ring
        · rw [if_pos hlk, if_pos hlk, if_neg (lt_irrefl _), if_pos rfl, h7]; push_cast; ring
        · rw [if_neg (by omega : ¬ t < l), if_neg (by omega : ¬ t = l), h6 t ht']; ring
      · simp only [if_neg hi, Lx, h2, h5 i t hi]
    have hb0 : s'.b 0 = s.b 0 := h3 0 (by omega)
    have hkk : sdot s'.b k k = sdot s.b k k - q * sdot s.b l k - q * sdot s.b k l
        + q * q * sdot s.b l l := by
      unfold sdot
      rw [hb0, h4, Finset.mul_sum, Finset.mul_sum, Finset.mul_sum, ← Finset.sum_sub_distrib,
        ← Finset.sum_sub_distrib, ← Finset.sum_add_distrib]
      apply Finset.sum_congr rfl; intro x _
      simp only [Pi.sub_apply, Pi.smul_apply, smul_eq_mul]; ring
    have hkj : ∀ j, j ≠ k → sdot s'.b k j = sdot s.b k j - q * sdot s.b l j := by
      intro j hj
      unfold sdot
      rw [hb0, h4, h3 j hj, Finset.mul_sum, ← Finset.sum_sub_distrib]
      apply Finset.sum_congr rfl; intro x _
      simp only [Pi.sub_apply, Pi.smul_apply, smul_eq_mul]; ring
    have hij : ∀ i j, i ≠ k → j ≠ k → sdot s'.b i j = sdot s.b i j := by
      intro i j hi hj
      unfold sdot
      rw [hb0, h3 i hi, h3 j hj]
    apply Inv.mk'
    · rw [h2]; have := h.d0; exact_mod_cast this
    · rw [h2]; exact fun i hi => h.dpos hi
    · intro i j hi hi' hj hj'
      have key : ∀ t ∈ Icc 1 N, Lx s'.lam s'.d i t * Lx s'.lam s'.d j t
            * wt (fun i => (s'.d i : ℚ)) t
          = (if i = k then Lx s.lam s.d k t - q * Lx s.lam s.d l t else Lx s.lam s.d i t)
            * (if j = k then Lx s.lam s.d k t - q * Lx s.lam s.d l t else Lx s.lam s.d j t)
            * wt (fun i => (s.d i : ℚ)) t := by
        intro t ht
        simp at ht
        rw [hLx i t ht.1, hLx j t ht.1, h2]
      rw [Finset.sum_congr rfl key]
      have E : ∀ i j, 1 ≤ i → i ≤ N → 1 ≤ j → j ≤ N → _ := h.eq
      by_cases hik : i = k <;> by_cases hjk : j = k
      · subst hik; subst hjk
        rw [hkk]; push_cast
        rw [E j j hi hi' hi hi', E l j hl (by omega) hi hi', E j l hi hi' hl (by omega),
          E l l hl (by omega) hl (by omega), Finset.mul_sum, Finset.mul_sum, Finset.mul_sum,
          ← Finset.sum_sub_distrib, ← Finset.sum_sub_distrib, ← Finset.sum_add_distrib]
        apply Finset.sum_congr rfl; intro x _
        simp only [if_true]; ring
      · subst hik
        rw [hkj j hjk]; push_cast
        rw [E i j hi hi' hj hj', E l j hl (by omega) hj hj', Finset.mul_sum,
          ← Finset.sum_sub_distrib]
        apply Finset.sum_congr rfl; intro x _
        simp only [if_true, if_neg hjk]; ring
      · subst hjk
        rw [sdot_comm, hkj i hik]; push_cast
        rw [E j i hj hj' hi hi', E l i hl (by omega) hi hi', Finset.mul_sum,
          ← Finset.sum_sub_distrib]
        apply Finset.sum_congr rfl; intro x _
        simp only [if_true, if_neg hik]; ring
      · rw [hij i j hik hjk, E i j hi hi' hj hj']
        apply Finset.sum_congr rfl; intro x _
        simp only [if_neg hik, if_neg hjk]
  · rw [h7, h2]
    exact nearest_spec _ _ hd

end Eclib.Lll
