import Verif.Lll.Ortho
import Mathlib.LinearAlgebra.Dimension.OrzechProperty
import Mathlib.LinearAlgebra.FiniteDimensional.Lemmas
import Mathlib.LinearAlgebra.Finsupp.LinearCombination

/-!
# The lattice is unchanged, whatever the weights
-/

namespace Eclib.Lll

open Finset

variable {m : ℕ}

/-- The lattice generated by `b 1, ..., b n`. -/
def lattice (n : ℕ) (b : ℕ → Fin m → ℤ) : Submodule ℤ (Fin m → ℤ) :=
  Submodule.span ℤ (b '' Set.Icc 1 n)

/-- Same weights, same lattice. -/
def Same (n : ℕ) (b b' : ℕ → Fin m → ℤ) : Prop :=
  b' 0 = b 0 ∧ lattice n b' = lattice n b

theorem Same.refl (n : ℕ) (b : ℕ → Fin m → ℤ) : Same n b b := ⟨rfl, rfl⟩

theorem Same.trans {n : ℕ} {b b' b'' : ℕ → Fin m → ℤ} (h : Same n b b') (h' : Same n b' b'') :
    Same n b b'' := ⟨h'.1.trans h.1, h'.2.trans h.2⟩

theorem mem_lattice {n : ℕ} {b : ℕ → Fin m → ℤ} {i : ℕ} (h1 : 1 ≤ i) (h2 : i ≤ n) :
    b i ∈ lattice n b := Submodule.subset_span ⟨i, ⟨h1, h2⟩, rfl⟩

theorem lattice_le {n : ℕ} {b b' : ℕ → Fin m → ℤ}
    (h : ∀ i, 1 ≤ i → i ≤ n → b' i ∈ lattice n b) : lattice n b' ≤ lattice n b := by
  apply Submodule.span_le.mpr
  rintro _ ⟨i, hi, rfl⟩
  exact h i hi.1 hi.2

theorem redi_same {n k l : ℕ} {s s' : St m} (h : redi n k l s = some s') : Same n s.b s'.b := by
  unfold redi at h
  split_ifs at h with h1 h2
  simp only at h
  split_ifs at h with h3
  · cases h; exact Same.refl _ _
  · cases h
    obtain ⟨hl, hlk, hkn⟩ := h1
    refine ⟨by simp only; rw [Function.update_of_ne (by omega)], le_antisymm ?_ ?_⟩
    · apply lattice_le
      intro i hi hin
      by_cases hik : i = k
      · subst hik
        simp only [Function.update_self]
        exact sub_mem (mem_lattice hi hin) (Submodule.smul_mem _ _ (mem_lattice hl (by omega)))
      · simp only [Function.update_of_ne hik]
        exact mem_lattice hi hin
    · apply lattice_le
      intro i hi hin
      set b' := Function.update s.b k (s.b k - nearest (s.lam k l) (s.d l) • s.b l) with hb'
      have hl' : s.b l = b' l := by rw [hb', Function.update_of_ne (by omega)]
      by_cases hik : i = k
      · subst hik
        have : s.b i = b' i + nearest (s.lam i l) (s.d l) • b' l := by
          rw [← hl', hb', Function.update_self]; simp
        rw [this]
        exact add_mem (mem_lattice hi hin) (Submodule.smul_mem _ _ (mem_lattice hl (by omega)))
      · have : s.b i = b' i := by rw [hb', Function.update_of_ne hik]
        rw [this]
        exact mem_lattice hi hin

theorem swapi_same {n k kmax : ℕ} {s s' : St m} (h : swapi n k kmax s = some s') :
    Same n s.b s'.b := by
  simp only [swapi] at h
  split_ifs at h with h1 h2 h3
  cases h
  obtain ⟨hk, hkm, hkn⟩ := h1
  set b' := Function.update (Function.update s.b (k - 1) (s.b k)) k (s.b (k - 1)) with hb'
  have hkk : k - 1 ≠ k := by omega
  have e1 : b' k = s.b (k - 1) := by simp [hb']
  have e2 : b' (k - 1) = s.b k := by simp [hb', hkk]
  have e3 : ∀ i, i ≠ k → i ≠ k - 1 → b' i = s.b i := by intro i h1 h2; simp [hb', h1, h2]
  refine ⟨e3 0 (by omega) (by omega), le_antisymm ?_ ?_⟩
  · apply lattice_le
    intro i hi hin
    change b' i ∈ _
    by_cases hik : i = k
    · rw [hik, e1]; exact mem_lattice (by omega) (by omega)
    · by_cases hik1 : i = k - 1
      · rw [hik1, e2]; exact mem_lattice (by omega) (by omega)
      · rw [e3 i hik hik1]; exact mem_lattice hi hin
  · apply lattice_le
    intro i hi hin
    by_cases hik : i = k
    · rw [hik, ← e2]; exact mem_lattice (by omega) (by omega)
    · by_cases hik1 : i = k - 1
      · rw [hik1, ← e1]; exact mem_lattice (by omega) (by omega)
      · rw [← e3 i hik hik1]; exact mem_lattice hi hin

theorem rediDown_same {n k l : ℕ} {s s' : St m} (h : rediDown n k l s = some s') :
    Same n s.b s'.b := by
  induction l generalizing s with
  | zero => simp only [rediDown] at h; cases h; exact Same.refl _ _
  | succ l ih =>
    simp only [rediDown, Option.bind_eq_some_iff] at h
    obtain ⟨s1, h1, h2⟩ := h
    exact (redi_same h1).trans (ih h2)

theorem step3_same {n kmax f k k' : ℕ} {s s' : St m} (h : step3 n kmax f k s = some (k', s')) :
    Same n s.b s'.b := by
  induction f generalizing s k with
  | zero => simp [step3] at h
  | succ f ih =>
    simp only [step3, Option.bind_eq_some_iff] at h
    obtain ⟨s1, h1, h2⟩ := h
    refine (redi_same h1).trans ?_
    split_ifs at h2 with hL hk
    · simp only [Option.bind_eq_some_iff] at h2
      obtain ⟨s2, h3, h4⟩ := h2
      exact (swapi_same h3).trans (ih h4)
    · simp only [Option.bind_eq_some_iff] at h2
      obtain ⟨s2, h3, h4⟩ := h2
      exact (swapi_same h3).trans (ih h4)
    · simp only [Option.map_eq_some_iff] at h2
      obtain ⟨s2, h3, h4⟩ := h2
      cases h4
      exact rediDown_same h3

theorem lamSteps_b {k : ℕ} (js : List ℕ) {s s' : St m} (h : js.foldlM (lamStep k) s = some s') :
    s'.b = s.b := by
  induction js generalizing s with
  | nil => simp at h; rw [h]
  | cons j js ih =>
    rw [List.foldlM_cons] at h
    simp only [Option.bind_eq_bind, Option.bind_eq_some_iff, lamStep, Option.map_eq_some_iff] at h
    obtain ⟨s1, ⟨u, hu, h1⟩, h2⟩ := h
    rw [ih h2, ← h1]

theorem step2_b {n k : ℕ} {s : St m} {r : Bool × St m} (h : step2 n k s = some r) :
    r.2.b = s.b := by
  unfold step2 at h
  split_ifs at h with h1
  simp only [Option.bind_eq_some_iff, Option.map_eq_some_iff] at h
  obtain ⟨s1, h2, u, h3, rfl⟩ := h
  have := lamSteps_b _ h2
  split_ifs <;> exact this

theorem loop_same {n f k kmax : ℕ} {s : St m} {r : Bool × St m}
    (h : loop n f k kmax s = some r) : Same n s.b r.2.b := by
  induction f generalizing s k kmax with
  | zero => simp [loop] at h
  | succ f ih =>
    unfold loop at h
    split_ifs at h with h1 h2
    · simp only [Option.bind_eq_some_iff] at h
      obtain ⟨r2, h3, h4⟩ := h
      have hb := step2_b h3
      split_ifs at h4 with h5
      · cases h4; rw [hb]; exact Same.refl _ _
      · simp only [Option.bind_eq_some_iff] at h4
        obtain ⟨⟨k', s'⟩, h6, h7⟩ := h4
        have := step3_same h6
        rw [hb] at this
        exact this.trans (ih h7)
    · simp only [Option.bind_eq_some_iff] at h
      obtain ⟨⟨k', s'⟩, h6, h7⟩ := h
      exact (step3_same h6).trans (ih h7)
    · cases h; exact Same.refl _ _

/-! ## Linear independence depends on the lattice only -/

/-- `b 1, ..., b n` are linearly independent over the rationals. -/
def Indep (n : ℕ) (b : ℕ → Fin m → ℤ) : Prop :=
  LinearIndependent ℚ (fun i : Fin n => toQ (b (i + 1)))

/-- `toQ` as a linear map. -/
def toQl : (Fin m → ℤ) →ₗ[ℤ] (Fin m → ℚ) where
  toFun := toQ
  map_add' x y := by funext k; simp [toQ]
  map_smul' c x := by funext k; simp [toQ]

theorem range_eq (n : ℕ) (b : ℕ → Fin m → ℤ) :
    Set.range (fun i : Fin n => toQ (b (i + 1))) = toQ '' (b '' Set.Icc 1 n) := by
  ext x
  simp only [Set.mem_range, Set.mem_image, Set.mem_Icc]
  constructor
  · rintro ⟨i, rfl⟩
    exact ⟨_, ⟨i + 1, by omega, rfl⟩, rfl⟩
  · rintro ⟨_, ⟨i, hi, rfl⟩, rfl⟩
    exact ⟨⟨i - 1, by omega⟩, by simp only; rw [show i - 1 + 1 = i by omega]⟩

theorem span_toQ (S : Set (Fin m → ℤ)) :
    Submodule.span ℚ (toQ '' (Submodule.span ℤ S : Set (Fin m → ℤ))) = Submodule.span ℚ (toQ '' S) := by
  apply le_antisymm
  · apply Submodule.span_le.mpr
    rintro _ ⟨x, hx, rfl⟩
    have hx' : x ∈ Submodule.span ℤ S := hx
    clear hx
    change toQ x ∈ _
    induction hx' using Submodule.span_induction with
    | mem x h => exact Submodule.subset_span ⟨x, h, rfl⟩
    | zero => have : toQ (0 : Fin m → ℤ) = 0 := by funext k; simp [toQ]
              rw [this]; exact zero_mem _
    | add x y hx hy h1 h2 =>
      have : toQ (x + y) = toQ x + toQ y := by funext k; simp [toQ]
      rw [this]; exact add_mem h1 h2
    | smul a x hx h1 =>
      have : toQ (a • x) = (a : ℚ) • toQ x := by funext k; simp [toQ]
      rw [this]; exact Submodule.smul_mem _ _ h1
  · apply Submodule.span_mono
    exact Set.image_mono Submodule.subset_span

theorem Same.indep {n : ℕ} {b b' : ℕ → Fin m → ℤ} (h : Same n b b') : Indep n b' ↔ Indep n b := by
  unfold Indep
  rw [linearIndependent_iff_card_eq_finrank_span, linearIndependent_iff_card_eq_finrank_span]
  have : Submodule.span ℚ (Set.range (fun i : Fin n => toQ (b' (i + 1))))
      = Submodule.span ℚ (Set.range (fun i : Fin n => toQ (b (i + 1)))) := by
    have h2 := h.2
    unfold lattice at h2
    rw [range_eq, range_eq, ← span_toQ (b' '' Set.Icc 1 n), ← span_toQ (b '' Set.Icc 1 n), h2]
  unfold Set.finrank
  rw [this]

theorem gs_mem_span (b : ℕ → Fin m → ℤ) (mu : ℕ → ℕ → ℚ) (j : ℕ) (hj : 1 ≤ j) :
    gs b mu j ∈ Submodule.span ℚ ((fun i => toQ (b i)) '' Set.Icc 1 j) := by
  induction j using Nat.strong_induction_on with
  | _ j ih =>
    rw [gs_eq]
    apply sub_mem
    · exact Submodule.subset_span ⟨j, ⟨hj, le_rfl⟩, rfl⟩
    · apply Submodule.sum_mem
      intro t ht
      simp at ht
      apply Submodule.smul_mem
      refine Submodule.span_mono ?_ (ih t (by omega) ht.1)
      apply Set.image_mono
      intro x hx; exact ⟨hx.1, by have := hx.2; omega⟩

theorem not_indep {n k : ℕ} {b : ℕ → Fin m → ℤ} (hk : 1 ≤ k) (hkn : k ≤ n)
    (h : toQ (b k) ∈ Submodule.span ℚ ((fun i => toQ (b i)) '' Set.Icc 1 (k - 1))) :
    ¬ Indep n b := by
  intro hI
  have := hI.notMem_span_image (s := {i : Fin n | (i : ℕ) + 1 < k}) (x := ⟨k - 1, by omega⟩)
    (by simp; omega)
  apply this
  simp only [show k - 1 + 1 = k by omega]
  refine Submodule.span_mono ?_ h
  rintro _ ⟨i, hi, rfl⟩
  have := hi.1
  have := hi.2
  exact ⟨⟨i - 1, by omega⟩, by simp; omega, by simp only; rw [show i - 1 + 1 = i by omega]⟩

theorem Dec.indep {n : ℕ} {b : ℕ → Fin m → ℤ} {L : ℕ → ℕ → ℚ} {d : ℕ → ℚ}
    (h : Dec (sdot b) n L d) : Indep n b := by
  unfold Indep
  rw [Fintype.linearIndependent_iff]
  intro c hc
  by_contra hne
  push Not at hne
  obtain ⟨i0, hi0⟩ := hne
  obtain ⟨i, hi, hmax⟩ := Finset.exists_max_image (Finset.univ.filter fun i : Fin n => c i ≠ 0)
    (fun i => (i : ℕ)) ⟨i0, by simp [hi0]⟩
  simp at hi
  have hz : ∀ t : Fin n, (i : ℕ) < t → c t = 0 := by
    intro t ht
    by_contra h0
    have := hmax t (by simp [h0])
    omega
  let y := gs b (fun i j => L i j / d j) (i + 1)
  have h1 : form (b 0) y (∑ t : Fin n, c t • toQ (b (t + 1))) = 0 := by rw [hc, form_zero]
  have h2 : form (b 0) y (∑ t : Fin n, c t • toQ (b (t + 1)))
      = ∑ t : Fin n, c t * (L (t + 1) (i + 1) / d i) := by
    have hs : ∀ (S : Finset (Fin n)), form (b 0) y (∑ t ∈ S, c t • toQ (b (t + 1)))
      = ∑ t ∈ S, c t * (L (t + 1) (i + 1) / d i) := by
      intro S
      classical
      induction S using Finset.induction_on with
      | empty => simp [form_zero]
      | insert a S ha ih =>
        rw [Finset.sum_insert ha, Finset.sum_insert ha, form_add, form_smul, ih, form_comm,
          form_b_gs h (a + 1) (by omega) (by omega) (i + 1) (by omega) (by omega)]
        simp
    exact hs Finset.univ
  rw [h2, Finset.sum_eq_single i] at h1
  · rw [h.diag (i + 1) (by omega) (by omega)] at h1
    have a1 := (h.pos (i + 1) (by omega)).ne'
    have a2 := (h.pos i (by omega)).ne'
    simp [a1, a2, hi] at h1
  · intro t _ hti
    rcases lt_or_gt_of_ne (fun h => hti (Fin.ext h) : (t : ℕ) ≠ i) with hlt | hgt
    · rw [h.up (t + 1) (i + 1) (by omega) (by omega) (by omega)]; simp
    · rw [hz t hgt]; simp
  · intro h; simp at h

end Eclib.Lll
