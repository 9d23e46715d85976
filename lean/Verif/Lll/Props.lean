import Mathlib.Algebra.Order.Field.Basic
import Verif.Lll.Lattice

/-!
# C49: LLL reduction

For weights `g > 0` and any integer vectors, `lll_reduce` terminates without undefined behaviour,
keeps the lattice, and either finds the vectors dependent (exactly when they are) or returns an
LLL reduced basis.
-/

namespace Eclib.Lll

open Finset

variable {m : ℕ}

/-! ## Invariants of the main loop -/

/-- The rows `2..K` are size reduced and satisfy the Lovász condition. -/
def RedUpTo (s : St m) (K : ℕ) : Prop :=
  ∀ i, 2 ≤ i → i ≤ K → (∀ j, 1 ≤ j → j < i → 2 * |s.lam i j| ≤ s.d j) ∧ ¬ lovaszFails i s

/-- The potential: the product of the `d[i]`. -/
def pot (N : ℕ) (s : St m) : ℕ := ∏ i ∈ Icc 1 N, (s.d i).toNat

theorem RedUpTo.congr {s s' : St m} {K : ℕ} (h : RedUpTo s K)
    (hl : ∀ i j, i ≤ K → s'.lam i j = s.lam i j) (hd : ∀ i, i ≤ K → s'.d i = s.d i) :
    RedUpTo s' K := by
  intro i hi hiK
  obtain ⟨h1, h2⟩ := h i hi hiK
  refine ⟨?_, ?_⟩
  · intro j hj hji
    rw [hl i j hiK, hd j (by omega)]; exact h1 j hj hji
  · unfold lovaszFails at h2 ⊢
    rw [hl i (i - 1) hiK, hd i hiK, hd (i - 1) (by omega), hd (i - 2) (by omega)]; exact h2

theorem rediDown_inv {n k N l : ℕ} {s : St m} (hlk : l < k) (hkN : k ≤ N) (hNn : N ≤ n)
    (h : Inv s N) :
    ∃ s', rediDown n k l s = some s' ∧ Inv s' N ∧ s'.d = s.d
      ∧ (∀ i j, i ≠ k → s'.lam i j = s.lam i j) ∧ (∀ j, l < j → s'.lam k j = s.lam k j)
      ∧ (∀ j, 1 ≤ j → j ≤ l → 2 * |s'.lam k j| ≤ s'.d j) := by
  induction l generalizing s with
  | zero => exact ⟨s, rfl, h, rfl, fun _ _ _ => rfl, fun _ _ => rfl, fun j h1 h2 => by omega⟩
  | succ l ih =>
    obtain ⟨s1, h1, h2, h3, -, h5, h6, h7⟩ := redi_inv (n := n) (l := l + 1) (by omega) hlk hkN hNn h
    obtain ⟨s2, g1, g2, g3, g5, g6, g7⟩ := ih (s := s1) (by omega) h2
    refine ⟨s2, by simp only [rediDown, h1, Option.bind_some, g1], g2, g3.trans h3, ?_, ?_, ?_⟩
    · intro i j hi; rw [g5 i j hi, h5 i j hi]
    · intro j hj; rw [g6 j (by omega), h6 j hj]
    · intro j hj hjl
      by_cases hj' : j = l + 1
      · rw [hj', g6 (l + 1) (by omega), g3]; exact h7
      · exact g7 j hj (by omega)

theorem pot_congr {N : ℕ} {s s' : St m} (h : s'.d = s.d) : pot N s' = pot N s := by
  unfold pot; rw [h]

theorem pot_lt {N k : ℕ} {s s' : St m} (hk : 1 ≤ k) (hkN : k ≤ N) (hp : ∀ i ≤ N, 0 < s.d i)
    (hd : ∀ i, i ≠ k → s'.d i = s.d i) (hlt : s'.d k < s.d k) : pot N s' < pot N s := by
  unfold pot
  have hmem : k ∈ Icc 1 N := by simp; omega
  rw [← Finset.mul_prod_erase _ _ hmem, ← Finset.mul_prod_erase _ _ hmem]
  have e : ∏ i ∈ (Icc 1 N).erase k, (s'.d i).toNat = ∏ i ∈ (Icc 1 N).erase k, (s.d i).toNat := by
    apply Finset.prod_congr rfl
    intro i hi
    rw [hd i (Finset.ne_of_mem_erase hi)]
  rw [e]
  apply Nat.mul_lt_mul_of_pos_right
  · have := hp k hkN; omega
  · apply Finset.prod_pos
    intro i hi
    have := hp i (by have := Finset.mem_of_mem_erase hi; simp at this; omega)
    omega

theorem step3_spec {n N : ℕ} (hNn : N ≤ n) (P : ℕ) : ∀ (k : ℕ) (s : St m), pot N s = P →
    2 ≤ k → k ≤ N → Inv s N → RedUpTo s (k - 1) →
    ∃ F k' s', (∀ f ≥ F, step3 n N f k s = some (k', s')) ∧ Inv s' N ∧ 2 ≤ k' ∧ k' ≤ N + 1
      ∧ RedUpTo s' (k' - 1) ∧ (pot N s' < P ∨ (pot N s' = P ∧ k' = k + 1)) := by
  induction P using Nat.strong_induction_on with
  | _ P ih =>
    intro k s hP hk hkN hI hR
    obtain ⟨s1, h1, h2, h3, -, h5, h6, h7⟩ :=
      redi_inv (n := n) (k := k) (l := k - 1) (by omega) (by omega) hkN hNn hI
    have hR1 : RedUpTo s1 (k - 1) :=
      hR.congr (fun i j hi => h5 i j (by omega)) (fun i _ => by rw [h3])
    have hP1 : pot N s1 = P := by rw [pot_congr h3, hP]
    by_cases hL : lovaszFails k s1
    · obtain ⟨s2, g1, g2, g3, g4, -, g6⟩ := swapi_inv (n := n) hk hkN hNn h2
      have hd1 := h2.dpos (i := k - 1) (by omega)
      have hlt : s2.d (k - 1) < s1.d (k - 1) := by
        unfold lovaszFails at hL
        have e : 4 * (s2.d (k - 1) * s1.d (k - 1)) < 3 * (s1.d (k - 1) * s1.d (k - 1)) := by
          rw [g4]; linarith [mul_comm (s1.d k) (s1.d (k - 2))]
        by_contra hge
        push Not at hge
        have := mul_le_mul_of_nonneg_right hge hd1.le
        nlinarith [mul_pos hd1 hd1]
      have hP2 : pot N s2 < P := by
        rw [← hP1]
        exact pot_lt (by omega) (by omega) (fun i hi => h2.dpos hi) g3 hlt
      obtain ⟨kn, hkn⟩ : ∃ kn, kn = if k - 1 < 2 then 2 else k - 1 := ⟨_, rfl⟩
      have hkn' : 2 ≤ kn ∧ kn ≤ N ∧ (kn - 1 ≤ k - 2 ∨ kn = 2) := by
        rw [hkn]; split_ifs <;> omega
      have hR2 : RedUpTo s2 (kn - 1) := by
        rcases hkn'.2.2 with h | h
        · intro i hi hi'
          have hRi : RedUpTo s1 (kn - 1) := fun i a b => hR1 i a (by omega)
          exact (hRi.congr (fun i j hi => g6 i j (by omega)) (fun i hi => g3 i (by omega))) i hi hi'
        · intro i hi hi'; omega
      obtain ⟨F, k', s', e1, e2, e3, e4, e5, e6⟩ :=
        ih _ hP2 kn s2 rfl hkn'.1 hkn'.2.1 g2 hR2
      refine ⟨F + 1, k', s', ?_, e2, e3, e4, e5, Or.inl ?_⟩
      · intro f hf
        obtain ⟨f', rfl⟩ : ∃ f', f = f' + 1 := ⟨f - 1, by omega⟩
        simp only [step3, h1, Option.bind_some, if_pos hL, g1]
        rw [← hkn]
        exact e1 f' (by omega)
      · rcases e6 with h | h
        · omega
        · omega
    · obtain ⟨s2, g1, g2, g3, g5, g6, g7⟩ :=
        rediDown_inv (n := n) (k := k) (l := k - 2) (by omega) hkN hNn h2
      refine ⟨1, k + 1, s2, ?_, g2, by omega, by omega, ?_, Or.inr ⟨by rw [pot_congr g3, hP1], rfl⟩⟩
      · intro f hf
        obtain ⟨f', rfl⟩ : ∃ f', f = f' + 1 := ⟨f - 1, by omega⟩
        simp only [step3, h1, Option.bind_some, if_neg hL, g1, Option.map_some]
      · intro i hi hi'
        by_cases hik : i = k
        · subst hik
          refine ⟨?_, ?_⟩
          · intro j hj hji
            by_cases hj2 : j ≤ i - 2
            · exact g7 j hj hj2
            · have : j = i - 1 := by omega
              rw [this, g6 (i - 1) (by omega), g3]; exact h7
          · unfold lovaszFails at hL ⊢
            rw [g6 (i - 1) (by omega), g3]; exact hL
        · have := hR1.congr (s' := s2) (fun i j hi => g5 i j (by omega)) (fun i _ => by rw [g3])
          exact this i hi (by omega)

theorem step2_total {n k : ℕ} {s : St m} (hg : ∀ x, 0 < s.b 0 x) (hk : 2 ≤ k) (hkn : k ≤ n)
    (h : Inv s (k - 1)) :
    ∃ r, step2 n k s = some r ∧ r.2.b = s.b ∧ (r.1 = true → ¬ Indep n s.b)
      ∧ (r.1 = false → Inv r.2 k ∧ (∀ i j, i ≤ k - 1 → r.2.lam i j = s.lam i j)
          ∧ (∀ i, i ≤ k - 1 → r.2.d i = s.d i)) := by
  obtain ⟨s1, u, h1, h2, h3, h4, h5, h6⟩ := step2_spec (n := n) (by omega) hkn h
  have hD : Dec (sdot s.b) (k - 1) (Lx s.lam s.d) (fun i => (s.d i : ℚ)) := h
  let v := toQ (s.b k) - ∑ j ∈ Icc 1 (k - 1), ((s1.lam k j : ℚ) / s.d j) •
    gs s.b (fun i j => Lx s.lam s.d i j / s.d j) j
  have hv : form (s.b 0) v v = sdot s.b k k - ∑ t ∈ Icc 1 (k - 1), (s1.lam k t : ℚ) * s1.lam k t
      * wt (fun i => (s.d i : ℚ)) t := by
    rw [sdot_form]
    apply form_rest hD (toQ (s.b k)) (fun i => (s1.lam k i : ℚ)) _ v rfl
    intro c hc hc'
    rw [← sdot_form, h5 c hc hc']
  have hd1 := h.dpos (i := k - 1) le_rfl
  have q1 : (0 : ℚ) < s.d (k - 1) := by exact_mod_cast hd1
  rw [← hv] at h6
  by_cases hu : u = 0
  · refine ⟨(true, s1), by rw [h1, if_pos hu], h2, fun _ => ?_, fun h => by simp at h⟩
    have hv0 : v = 0 := by
      apply form_eq_zero _ hg
      rw [hu] at h6
      have h6' : (s.d (k - 1) : ℚ) * form (s.b 0) v v = 0 := by rw [← h6]; simp
      rcases mul_eq_zero.mp h6' with h | h
      · exact absurd h q1.ne'
      · exact h
    apply not_indep (k := k) (by omega) hkn
    have : toQ (s.b k) = ∑ j ∈ Icc 1 (k - 1), ((s1.lam k j : ℚ) / s.d j) •
        gs s.b (fun i j => Lx s.lam s.d i j / s.d j) j := by
      rw [← sub_eq_zero]; exact hv0
    rw [this]
    apply Submodule.sum_mem
    intro t ht
    simp at ht
    apply Submodule.smul_mem
    refine Submodule.span_mono ?_ (gs_mem_span s.b _ t ht.1)
    apply Set.image_mono
    intro x hx; exact ⟨hx.1, by have := hx.2; omega⟩
  · have hupos : 0 < u := by
      have h7 : (0 : ℚ) ≤ u := by
        rw [h6]; exact mul_nonneg q1.le (form_nonneg _ hg v)
      have h8 : 0 ≤ u := by exact_mod_cast h7
      omega
    refine ⟨(false, { s1 with d := Function.update s1.d k u }), by rw [h1, if_neg hu], h2,
      fun h => by simp at h, fun _ => ⟨?_, ?_, ?_⟩⟩
    · rw [hv] at h6
      exact step2_inv (by omega) h hupos h2 h3 h4 h5 h6
    · intro i j hi; exact h4 i j (by omega)
    · intro i hi
      simp only [Function.update_of_ne (show i ≠ k by omega), h3]

theorem loop_spec (n : ℕ) (k kmax : ℕ) (s : St m) (hg : ∀ x, 0 < s.b 0 x)
    (hkm : 1 ≤ kmax) (hkmn : kmax ≤ n) (hk : 2 ≤ k) (hkk : k ≤ kmax + 1) (hI : Inv s kmax)
    (hR : RedUpTo s (k - 1)) :
    ∃ F r, (∀ f ≥ F, loop n f k kmax s = some r) ∧ (r.1 = true → ¬ Indep n r.2.b)
      ∧ (r.1 = false → Inv r.2 n ∧ RedUpTo r.2 n) := by
  by_cases hkn : k ≤ n
  · by_cases hkm' : k > kmax
    · have hkeq : k = kmax + 1 := by omega
      obtain ⟨r2, h1, h2, h3, h4⟩ := step2_total (n := n) (k := k) hg hk hkn (by
        rw [hkeq]; exact hI)
      by_cases hr : r2.1 = true
      · refine ⟨1, r2, ?_, fun _ => by rw [h2]; exact h3 hr, fun h => by rw [hr] at h; simp at h⟩
        intro f hf
        obtain ⟨f', rfl⟩ : ∃ f', f = f' + 1 := ⟨f - 1, by omega⟩
        simp only [loop, if_pos hkn, if_pos hkm', h1, Option.bind_some, hr, if_true]
      · obtain ⟨g1, g2, g3⟩ := h4 (by simpa using hr)
        have hR2 : RedUpTo r2.2 (k - 1) := hR.congr g2 g3
        obtain ⟨F, k', s', e1, e2, e3, e4, e5, e6⟩ :=
          step3_spec (n := n) hkn _ k r2.2 rfl hk le_rfl g1 hR2
        have hb : s'.b 0 = s.b 0 := by
          rw [← h2]; exact (step3_same (e1 F le_rfl)).1
        obtain ⟨F2, r, a1, a2, a3⟩ := loop_spec n k' k s' (by rw [hb]; exact hg) (by omega) hkn e3 e4
          e2 e5
        refine ⟨max F F2 + 1, r, ?_, a2, a3⟩
        intro f hf
        obtain ⟨f', rfl⟩ : ∃ f', f = f' + 1 := ⟨f - 1, by omega⟩
        simp only [loop, if_pos hkn, if_pos hkm', h1, Option.bind_some, if_neg hr]
        rw [e1 f' (by omega), Option.bind_some]
        exact a1 f' (by omega)
    · obtain ⟨F, k', s', e1, e2, e3, e4, e5, e6⟩ :=
        step3_spec (n := n) hkmn _ k s rfl hk (by omega) hI hR
      have hb : s'.b 0 = s.b 0 := (step3_same (e1 F le_rfl)).1
      obtain ⟨F2, r, a1, a2, a3⟩ := loop_spec n k' kmax s' (by rw [hb]; exact hg) hkm hkmn e3 e4
        e2 e5
      refine ⟨max F F2 + 1, r, ?_, a2, a3⟩
      intro f hf
      obtain ⟨f', rfl⟩ : ∃ f', f = f' + 1 := ⟨f - 1, by omega⟩
      simp only [loop, if_pos hkn, if_neg hkm']
      rw [e1 f' (by omega), Option.bind_some]
      exact a1 f' (by omega)
  · refine ⟨1, (false, s), ?_, fun h => by simp at h, fun _ => ?_⟩
    · intro f hf
      obtain ⟨f', rfl⟩ : ∃ f', f = f' + 1 := ⟨f - 1, by omega⟩
      simp only [loop, if_neg hkn]
    · have h1 : kmax = n := by omega
      have h2 : k - 1 = n := by omega
      rw [h1] at hI; rw [h2] at hR
      exact ⟨hI, hR⟩
termination_by (n - kmax, pot kmax s, n + 1 - k)
decreasing_by
  · apply Prod.Lex.left; omega
  · rcases e6 with h | ⟨h, h'⟩
    · apply Prod.Lex.right; apply Prod.Lex.left; exact h
    · rw [h]; apply Prod.Lex.right; apply Prod.Lex.right; omega

/-! ## More fuel does not change the result -/

theorem step3_mono {n N f k : ℕ} {s : St m} {r : ℕ × St m} (h : step3 n N f k s = some r) :
    step3 n N (f + 1) k s = some r := by
  induction f generalizing s k with
  | zero => simp [step3] at h
  | succ f ih =>
    rw [step3] at h ⊢
    simp only [Option.bind_eq_some_iff] at h ⊢
    obtain ⟨s1, h1, h2⟩ := h
    refine ⟨s1, h1, ?_⟩
    by_cases hL : lovaszFails k s1
    · rw [if_pos hL] at h2 ⊢
      simp only [Option.bind_eq_some_iff] at h2 ⊢
      obtain ⟨s2, h3, h4⟩ := h2
      exact ⟨s2, h3, ih h4⟩
    · rw [if_neg hL] at h2 ⊢; exact h2

theorem loop_mono {n f k kmax : ℕ} {s : St m} {r : Bool × St m} (h : loop n f k kmax s = some r) :
    loop n (f + 1) k kmax s = some r := by
  induction f generalizing s k kmax with
  | zero => simp [loop] at h
  | succ f ih =>
    rw [loop] at h ⊢
    by_cases h1 : k ≤ n
    · rw [if_pos h1] at h ⊢
      by_cases h2 : k > kmax
      · rw [if_pos h2] at h ⊢
        simp only [Option.bind_eq_some_iff] at h ⊢
        obtain ⟨r2, h3, h4⟩ := h
        refine ⟨r2, h3, ?_⟩
        by_cases h5 : r2.1 = true
        · rw [if_pos h5] at h4 ⊢; exact h4
        · rw [if_neg h5] at h4 ⊢
          simp only [Option.bind_eq_some_iff] at h4 ⊢
          obtain ⟨r3, h6, h7⟩ := h4
          exact ⟨r3, step3_mono h6, ih h7⟩
      · rw [if_neg h2] at h ⊢
        simp only [Option.bind_eq_some_iff] at h ⊢
        obtain ⟨r3, h6, h7⟩ := h
        exact ⟨r3, step3_mono h6, ih h7⟩
    · rw [if_neg h1] at h ⊢; exact h

theorem lllReduce_mono {f f' n : ℕ} {b : ℕ → Fin m → ℤ} {r} (hf : f ≤ f')
    (h : lllReduce f n b = some r) : lllReduce f' n b = some r := by
  induction f', hf using Nat.le_induction with
  | base => exact h
  | succ f' _ ih =>
    unfold lllReduce at ih ⊢
    split_ifs at ih ⊢ with hn
    simp only [Option.map_eq_some_iff] at ih ⊢
    obtain ⟨a, h1, h2⟩ := ih
    exact ⟨a, loop_mono h1, h2⟩

/-! ## From the decomposition to the specification -/

theorem Inv.reduced {n : ℕ} {s : St m} (hI : Inv s n) (hR : RedUpTo s n) :
    Reduced (s.b 0) n s.b := by
  have hD : Dec (sdot s.b) n (Lx s.lam s.d) (fun i => (s.d i : ℚ)) := hI
  have hpos : ∀ i ≤ n, (0 : ℚ) < s.d i := fun i hi => by exact_mod_cast hI.dpos hi
  refine ⟨gs s.b (fun i j => Lx s.lam s.d i j / s.d j), fun i j => Lx s.lam s.d i j / s.d j,
    ⟨?_, ?_, ?_⟩, ?_, ?_⟩
  · intro i hi hin
    conv_rhs => rw [gs_eq]
    simp
  · intro i j hi hin hj hjn hij
    rw [gs_orth hD i hi hin j hj hjn, if_neg hij]
  · intro i hi hin
    rw [gs_orth hD i hi hin i hi hin, if_pos rfl]
    exact div_pos (hpos i hin) (hpos (i - 1) (by omega))
  · intro i j hj hji hin
    have h1 := (hR i (by omega) hin).1 j hj hji
    have hp := hpos j (by omega)
    simp only [Lx]
    rw [if_pos hji, abs_div, abs_of_pos hp, div_le_iff₀ hp]
    have h2 : (2 * |(s.lam i j : ℚ)|) ≤ s.d j := by exact_mod_cast h1
    linarith
  · intro i hi hin
    have h1 := (hR i hi hin).2
    unfold lovaszFails at h1
    push Not at h1
    have h2 : (3 * ((s.d (i - 1) : ℚ) * s.d (i - 1)))
        ≤ 4 * ((s.d i : ℚ) * s.d (i - 2) + s.lam i (i - 1) * s.lam i (i - 1)) := by exact_mod_cast h1
    rw [gs_orth hD i (by omega) hin i (by omega) hin,
      gs_orth hD (i - 1) (by omega) (by omega) (i - 1) (by omega) (by omega), if_pos rfl, if_pos rfl]
    simp only [Lx]
    rw [if_pos (show i - 1 < i by omega), show i - 1 - 1 = i - 2 by omega]
    have p1 := hpos (i - 1) (by omega)
    have p2 := hpos (i - 2) (by omega)
    rw [← sub_nonneg]
    have e : (s.d i : ℚ) / s.d (i - 1) - (3 / 4 - (s.lam i (i - 1) / s.d (i - 1)) ^ 2)
        * (s.d (i - 1) / s.d (i - 2))
        = (4 * ((s.d i : ℚ) * s.d (i - 2) + s.lam i (i - 1) * s.lam i (i - 1))
          - 3 * ((s.d (i - 1) : ℚ) * s.d (i - 1))) / (4 * s.d (i - 1) * s.d (i - 2)) := by
      field_simp; ring
    rw [e]
    apply div_nonneg
    · linarith
    · positivity

/-! ## The start -/

/-- The state before the loop. -/
def start (b : ℕ → Fin m → ℤ) : St m :=
  { b := b, lam := fun _ _ => 0,
    d := Function.update (Function.update (fun _ => 0) 0 1) 1 (sdot b 1 1) }

theorem lllReduce_eq {f n : ℕ} {b : ℕ → Fin m → ℤ} (hn : 1 ≤ n) :
    lllReduce f n b = (loop n f 2 1 (start b)).map fun r => (r.1, r.2.b) := by
  unfold lllReduce
  rw [if_neg (by omega)]; rfl

theorem start_inv (b : ℕ → Fin m → ℤ) (h : 0 < sdot b 1 1) : Inv (start b) 1 := by
  have hd0 : (start b).d 0 = 1 := by simp [start]
  have hd1 : (start b).d 1 = sdot b 1 1 := by simp [start]
  apply Inv.mk' hd0
  · intro i hi
    interval_cases i
    · rw [hd0]; norm_num
    · rw [hd1]; exact h
  · intro i j hi hi' hj hj'
    have e1 : i = 1 := by omega
    have e2 : j = 1 := by omega
    subst e1; subst e2
    have hq : (0 : ℚ) < sdot b 1 1 := by exact_mod_cast h
    simp only [Finset.Icc_self, Finset.sum_singleton, Lx, wt, hd1, hd0, lt_irrefl, if_false, if_true]
    change (sdot b 1 1 : ℚ) = _
    field_simp
    simp

theorem sdot_one_pos {b : ℕ → Fin m → ℤ} (hg : ∀ x, 0 < b 0 x) (h : b 1 ≠ 0) : 0 < sdot b 1 1 := by
  have h1 : (0 : ℚ) ≤ sdot b 1 1 := by rw [sdot_form]; exact form_nonneg _ hg _
  have h2 : (sdot b 1 1 : ℚ) ≠ 0 := by
    rw [sdot_form]
    intro h0
    have := form_eq_zero _ hg _ h0
    apply h
    funext k
    have := congrFun this k
    simpa [toQ] using this
  have h3 : 0 ≤ sdot b 1 1 := by exact_mod_cast h1
  have h4 : sdot b 1 1 ≠ 0 := by exact_mod_cast h2
  omega

/-- A zero first vector is found to be dependent at once. -/
theorem start_zero {f n : ℕ} {b : ℕ → Fin m → ℤ} (hn : 2 ≤ n) (h : b 1 = 0) :
    lllReduce (f + 1) n b = some (true, b) := by
  have h11 : sdot b 1 1 = 0 := by simp [sdot, h]
  have h21 : sdot b 2 1 = 0 := by simp [sdot, h]
  rw [lllReduce_eq (by omega), loop, if_pos hn, if_pos (by omega)]
  have hd0 : (start b).d 0 = 1 := by simp [start]
  have hd1 : (start b).d 1 = 0 := by simp [start, h11]
  have hb : (start b).b = b := rfl
  have e1 : (List.range' 1 (2 - 1)).foldlM (lamStep 2) (start b)
      = some { start b with lam := setL (start b).lam 2 1 0 } := by
    simp [lamStep, uVal, hb, h21]
  have e2 : step2 n 2 (start b) = some (true, { start b with lam := setL (start b).lam 2 1 0 }) := by
    unfold step2
    rw [if_neg (by omega), e1]
    simp [uVal, uStep, hd0, hd1, setL]
  rw [e2]
  simp [hb]

/-! ## The theorems -/

/-- **C49** (termination): for positive weights `lll_reduce` returns, without an access out of range
and without a division by zero, whatever the vectors. -/
theorem C49_terminates {n : ℕ} {b : ℕ → Fin m → ℤ} (hn : 1 ≤ n) (hg : ∀ x, 0 < b 0 x) :
    ∃ F r, ∀ f ≥ F, lllReduce f n b = some r := by
  by_cases h1 : b 1 = 0
  · by_cases hn2 : 2 ≤ n
    · refine ⟨1, (true, b), fun f hf => ?_⟩
      obtain ⟨f', rfl⟩ : ∃ f', f = f' + 1 := ⟨f - 1, by omega⟩
      exact start_zero hn2 h1
    · refine ⟨1, (false, b), fun f hf => ?_⟩
      obtain ⟨f', rfl⟩ : ∃ f', f = f' + 1 := ⟨f - 1, by omega⟩
      rw [lllReduce_eq hn, loop, if_neg (by omega)]; rfl
  · obtain ⟨F, r, hF, -, -⟩ := loop_spec n 2 1 (start b) hg le_rfl hn le_rfl (by omega)
      (start_inv b (sdot_one_pos hg h1)) (fun i hi hi' => by omega)
    exact ⟨F, (r.1, r.2.b), fun f hf => by rw [lllReduce_eq hn, hF f hf]; rfl⟩

/-- **C49** (lattice): the weights are unchanged and the vectors returned generate the same lattice,
for any weights and vectors and also when the vectors are reported dependent. -/
theorem C49_lattice {f n : ℕ} {b : ℕ → Fin m → ℤ} {r} (h : lllReduce f n b = some r) :
    r.2 0 = b 0 ∧ Submodule.span ℤ (r.2 '' Set.Icc 1 n) = Submodule.span ℤ (b '' Set.Icc 1 n) := by
  by_cases hn : n < 1
  · simp [lllReduce, hn] at h
  · rw [lllReduce_eq (by omega), Option.map_eq_some_iff] at h
    obtain ⟨a, h1, rfl⟩ := h
    exact loop_same h1

/-- **C49** (reduction): if the vectors are not reported dependent (and, for `n = 1`, the vector is
not zero), the vectors returned are LLL reduced. -/
theorem C49_reduced {f n : ℕ} {b : ℕ → Fin m → ℤ} {r} (hg : ∀ x, 0 < b 0 x)
    (hb : n = 1 → b 1 ≠ 0) (h : lllReduce f n b = some r) (hr : r.1 = false) :
    Reduced (b 0) n r.2 := by
  by_cases hn : n < 1
  · simp [lllReduce, hn] at h
  by_cases h1 : b 1 = 0
  · have h2 := lllReduce_mono (f' := f + 1) (by omega) h
    rw [start_zero (by by_contra; exact hb (by omega) h1) h1] at h2
    cases h2
    simp at hr
  · obtain ⟨F, a, hF, -, h3⟩ := loop_spec n 2 1 (start b) hg le_rfl (by omega) le_rfl (by omega)
      (start_inv b (sdot_one_pos hg h1)) (fun i hi hi' => by omega)
    have h4 := lllReduce_mono (f' := max f F) (by omega) h
    rw [lllReduce_eq (by omega), hF _ (by omega)] at h4
    cases h4
    obtain ⟨h5, h6⟩ := h3 hr
    have h7 := (loop_same (hF F le_rfl)).1
    have := h5.reduced h6
    rw [h7] at this
    exact this

/-- **C49** (dependence): for `n ≥ 2` the report "input vectors dependent!" is given exactly when the
input vectors are linearly dependent. -/
theorem C49_dependent {f n : ℕ} {b : ℕ → Fin m → ℤ} {r} (hg : ∀ x, 0 < b 0 x) (hn : 2 ≤ n)
    (h : lllReduce f n b = some r) :
    r.1 = true ↔ ¬ LinearIndependent ℚ (fun i : Fin n => fun k => (b (i + 1) k : ℚ)) := by
  change _ ↔ ¬ Indep n b
  by_cases h1 : b 1 = 0
  · have h2 := lllReduce_mono (f' := f + 1) (by omega) h
    rw [start_zero hn h1] at h2
    cases h2
    simp only [true_iff]
    intro hI
    have := hI.ne_zero ⟨0, by omega⟩
    apply this
    simp only [zero_add, h1]
    funext k; simp [toQ]
  · obtain ⟨F, a, hF, h2, h3⟩ := loop_spec n 2 1 (start b) hg le_rfl (by omega) le_rfl (by omega)
      (start_inv b (sdot_one_pos hg h1)) (fun i hi hi' => by omega)
    have h4 := lllReduce_mono (f' := max f F) (by omega) h
    rw [lllReduce_eq (by omega), hF _ (by omega)] at h4
    cases h4
    have h7 : Same n b a.2.b := loop_same (hF F le_rfl)
    simp only
    constructor
    · intro ht; rw [← h7.indep]; exact h2 ht
    · intro hI
      by_contra hne
      have hf : a.1 = false := by simpa using hne
      apply hI
      rw [← h7.indep]
      have hD : Dec (sdot a.2.b) n _ _ := (h3 hf).1
      exact hD.indep

/-- For `n = 1` a zero vector is not reported. -/
theorem C49_dependent_one_fails : ∃ (b : ℕ → Fin 1 → ℤ), (∀ x, 0 < b 0 x) ∧ b 1 = 0
    ∧ ∀ f, 1 ≤ f → lllReduce f 1 b = some (false, b) := by
  refine ⟨fun i => if i = 0 then 1 else 0, by simp, by simp, ?_⟩
  intro f hf
  obtain ⟨f', rfl⟩ : ∃ f', f = f' + 1 := ⟨f - 1, by omega⟩
  rw [lllReduce_eq le_rfl, loop, if_neg (by omega)]; rfl

/-- For `n = 0` the code assigns `d[1]` in a vector of length 1. -/
theorem C49_empty_fails (f : ℕ) (b : ℕ → Fin m → ℤ) : lllReduce f 0 b = none := by
  simp [lllReduce]

end Eclib.Lll
