import Verif.Sift.Model
import Mathlib.LinearAlgebra.FiniteDimensional.Lemmas
import Mathlib.LinearAlgebra.Dimension.OrzechProperty
import Mathlib.Data.ZMod.Basic
import Mathlib.Tactic.LinearCombination

/-!
# The elimination over `ℤ/2`
-/

namespace Eclib.Sift

open Module

/-- a vector of bits as a vector over `ℤ/2` -/
def vec (D : ℕ) (l : List Bool) : Fin D → ZMod 2 := fun k => if l.getD k false then 1 else 0

theorem vec_zero {D : ℕ} {l : List Bool} {k : Fin D} (h : l.getD k false = false) : vec D l k = 0 := by
  rw [vec, h]
  rfl

theorem vec_one {D : ℕ} {l : List Bool} {k : Fin D} (h : l.getD k false = true) : vec D l k = 1 := by
  rw [vec, h]
  rfl

/-- the span of the rows -/
def Spn (D : ℕ) (rows : List (List Bool × ℕ)) : Submodule (ZMod 2) (Fin D → ZMod 2) :=
  Submodule.span (ZMod 2) {v | ∃ r ∈ rows, v = vec D r.1}

/-- the state of the matrix -/
structure RowsOk (D : ℕ) (rows : List (List Bool × ℕ)) : Prop where
  each : ∀ r ∈ rows, r.1.length = D ∧ r.2 < D ∧ r.1.getD r.2 false = true
  tri : rows.Pairwise (fun r s => s.1.getD r.2 false = false)

theorem getD_xor {a b : List Bool} (h : a.length = b.length) (k : ℕ) :
    (List.zipWith xor a b).getD k false = xor (a.getD k false) (b.getD k false) := by
  simp only [List.getD_eq_getElem?_getD, List.getElem?_zipWith]
  by_cases hk : k < a.length
  · rw [List.getElem?_eq_getElem hk, List.getElem?_eq_getElem (h ▸ hk)]
    rfl
  · rw [List.getElem?_eq_none (by omega), List.getElem?_eq_none (by omega)]
    rfl

theorem vec_xor {D : ℕ} {a b : List Bool} (h : a.length = b.length) :
    vec D (List.zipWith xor a b) = vec D a + vec D b := by
  funext k
  simp only [vec, Pi.add_apply, getD_xor h]
  cases a.getD (k : ℕ) false <;> cases b.getD (k : ℕ) false <;> decide

theorem elim_cons (im : List Bool) (r : List Bool × ℕ) (rows : List (List Bool × ℕ)) :
    elim im (r :: rows) = elim (if im.getD r.2 false then List.zipWith xor im r.1 else im) rows := rfl

theorem elim_length {D : ℕ} : ∀ (rows : List (List Bool × ℕ)) (im : List Bool), im.length = D → (∀ r ∈ rows, r.1.length = D) →
    (elim im rows).length = D
  | [], im, h, _ => h
  | r :: rows, im, h, hr => by
    rw [elim_cons]
    apply elim_length rows _ _ (fun s hs => hr s (List.mem_cons_of_mem _ hs))
    split
    · simp [h, hr r List.mem_cons_self]
    · exact h

theorem elim_const {D c : ℕ} : ∀ (rows : List (List Bool × ℕ)) (im : List Bool), im.length = D → (∀ r ∈ rows, r.1.length = D) →
    (∀ r ∈ rows, r.1.getD c false = false) → (elim im rows).getD c false = im.getD c false
  | [], im, _, _, _ => rfl
  | r :: rows, im, h, hr, hc => by
    have hl := hr r List.mem_cons_self
    rw [elim_cons, elim_const (D := D) rows _ _ (fun s hs => hr s (List.mem_cons_of_mem _ hs))
      (fun s hs => hc s (List.mem_cons_of_mem _ hs))]
    · split
      · rw [getD_xor (by omega), hc r List.mem_cons_self]
        simp
      · rfl
    · split
      · simp [h, hl]
      · exact h

theorem elim_zero {D : ℕ} : ∀ (rows : List (List Bool × ℕ)) (im : List Bool), im.length = D → RowsOk D rows →
    ∀ r ∈ rows, (elim im rows).getD r.2 false = false
  | [], _, _, _ => by simp
  | s :: rows, im, h, ok => by
    obtain ⟨he, ht⟩ := ok
    rw [List.pairwise_cons] at ht
    obtain ⟨hl, hc, h1⟩ := he s List.mem_cons_self
    have he' : ∀ r ∈ rows, r.1.length = D := fun r hr => (he r (List.mem_cons_of_mem _ hr)).1
    have hlen : (if im.getD s.2 false then List.zipWith xor im s.1 else im).length = D := by
      split
      · simp [h, hl]
      · exact h
    intro r hr
    rw [elim_cons]
    rcases List.mem_cons.1 hr with rfl | hr
    · rw [elim_const rows _ hlen he' ht.1]
      split
      · rename_i h2
        rw [getD_xor (by omega), h1, h2]
        rfl
      · rename_i h2
        exact Bool.not_eq_true _ ▸ h2
    · exact elim_zero rows _ hlen ⟨fun r hr => he r (List.mem_cons_of_mem _ hr), ht.2⟩ r hr

theorem mem_Spn {D : ℕ} {rows : List (List Bool × ℕ)} {r : List Bool × ℕ} (h : r ∈ rows) : vec D r.1 ∈ Spn D rows :=
  Submodule.subset_span ⟨r, h, rfl⟩

theorem Spn_mono {D : ℕ} {rows rows' : List (List Bool × ℕ)} (h : ∀ r ∈ rows, r ∈ rows') : Spn D rows ≤ Spn D rows' :=
  Submodule.span_mono (fun _ ⟨r, hr, e⟩ => ⟨r, h r hr, e⟩)

theorem Spn_append {D : ℕ} (rows : List (List Bool × ℕ)) (r : List Bool × ℕ) :
    Spn D (rows ++ [r]) = Spn D rows ⊔ Submodule.span (ZMod 2) {vec D r.1} := by
  rw [Spn, Spn, ← Submodule.span_union]
  congr 1
  ext v
  simp [or_and_right, exists_or, or_comm]

theorem Spn_cons {D : ℕ} (rows : List (List Bool × ℕ)) (r : List Bool × ℕ) :
    Spn D (r :: rows) = Submodule.span (ZMod 2) {vec D r.1} ⊔ Spn D rows := by
  rw [Spn, Spn, ← Submodule.span_union]
  congr 1
  ext v
  simp

theorem elim_diff {D : ℕ} : ∀ (rows : List (List Bool × ℕ)) (im : List Bool), im.length = D → (∀ r ∈ rows, r.1.length = D) →
    vec D (elim im rows) - vec D im ∈ Spn D rows
  | [], im, _, _ => by
    show vec D im - vec D im ∈ _
    rw [sub_self]
    exact Submodule.zero_mem _
  | r :: rows, im, h, hr => by
    have hl := hr r List.mem_cons_self
    rw [elim_cons]
    have hm : Spn D rows ≤ Spn D (r :: rows) := Spn_mono (fun s hs => List.mem_cons_of_mem _ hs)
    split
    · have := hm (elim_diff rows (List.zipWith xor im r.1) (by simp [h, hl]) (fun s hs => hr s (List.mem_cons_of_mem _ hs)))
      rw [vec_xor (by omega)] at this
      have h2 := Submodule.add_mem _ this (mem_Spn (D := D) (List.mem_cons_self (a := r) (l := rows)))
      convert h2 using 1
      abel
    · exact hm (elim_diff rows im h (fun s hs => hr s (List.mem_cons_of_mem _ hs)))

theorem Spn_zero_at {D : ℕ} {rows : List (List Bool × ℕ)} {c : Fin D} (h : ∀ r ∈ rows, r.1.getD c false = false)
    {x : Fin D → ZMod 2} (hx : x ∈ Spn D rows) : x c = 0 := by
  induction hx using Submodule.span_induction with
  | mem v hv =>
    obtain ⟨r, hr, rfl⟩ := hv
    exact vec_zero (h r hr)
  | zero => rfl
  | add a b _ _ ha hb => rw [Pi.add_apply, ha, hb, add_zero]
  | smul t a _ ha => rw [Pi.smul_apply, ha, smul_zero]

theorem span_zero {D : ℕ} : ∀ (rows : List (List Bool × ℕ)), RowsOk D rows → ∀ x ∈ Spn D rows,
    (∀ r ∈ rows, ∀ c : Fin D, (c : ℕ) = r.2 → x c = 0) → x = 0
  | [], _, x, hx, _ => by
    simpa [Spn] using hx
  | r :: rows, ok, x, hx, h0 => by
    obtain ⟨he, ht⟩ := ok
    rw [List.pairwise_cons] at ht
    obtain ⟨hl, hc, h1⟩ := he r List.mem_cons_self
    rw [Spn_cons] at hx
    obtain ⟨y, hy, z, hz, rfl⟩ := Submodule.mem_sup.1 hx
    obtain ⟨a, rfl⟩ := Submodule.mem_span_singleton.1 hy
    have hz0 := Spn_zero_at (c := ⟨r.2, hc⟩) ht.1 hz
    have hx0 := h0 r List.mem_cons_self ⟨r.2, hc⟩ rfl
    have hv : vec D r.1 ⟨r.2, hc⟩ = 1 := vec_one h1
    rw [Pi.add_apply, hz0, Pi.smul_apply, hv, add_zero, smul_eq_mul, mul_one] at hx0
    rw [hx0, zero_smul, zero_add] at h0 ⊢
    exact span_zero rows ⟨fun s hs => he s (List.mem_cons_of_mem _ hs), ht.2⟩ z hz
      (fun s hs => h0 s (List.mem_cons_of_mem _ hs))

theorem rank_eq {D : ℕ} (rows : List (List Bool × ℕ)) : RowsOk D rows → finrank (ZMod 2) (Spn D rows) = rows.length := by
    induction rows using List.reverseRecOn with
    | nil =>
      intro _
      have : Spn D [] = ⊥ := by
        rw [Spn, Submodule.span_eq_bot]
        rintro v ⟨r, hr, -⟩
        simp at hr
      rw [this]
      simp
    | append_singleton rows r ih =>
      rintro ⟨he, ht⟩
      have ok : RowsOk D rows := ⟨fun s hs => he s (List.mem_append_left _ hs), (List.pairwise_append.1 ht).1⟩
      have hr := he r (by simp)
      have htr := (List.pairwise_append.1 ht).2.2
      rw [Spn_append, Submodule.finrank_sup_span_singleton, ih ok, List.length_append, List.length_singleton]
      intro hm
      have := span_zero rows ok _ hm (by
        intro s hs c hcs
        have := htr s hs r (by simp)
        exact vec_zero (by rw [hcs]; exact this))
      have h1 := congrFun this ⟨r.2, hr.2.1⟩
      rw [vec_one hr.2.2] at h1
      exact absurd h1 one_ne_zero

/-- **One step of the elimination**: the new matrix has the right shape and spans the old span and the new vector -/
theorem elim_step {D : ℕ} {rows : List (List Bool × ℕ)} (ok : RowsOk D rows) {im : List Bool} (hl : im.length = D) :
    ((elim im rows).findIdx? id = none → vec D im ∈ Spn D rows) ∧
    (∀ j, (elim im rows).findIdx? id = some j → rows.length < D ∧ RowsOk D (rows ++ [(elim im rows, j)]) ∧
      Spn D (rows ++ [(elim im rows, j)]) = Spn D rows ⊔ Submodule.span (ZMod 2) {vec D im}) := by
  have hr : ∀ r ∈ rows, r.1.length = D := fun r h => (ok.each r h).1
  have hd := elim_diff rows im hl hr
  constructor
  · intro h
    rw [List.findIdx?_eq_none_iff] at h
    have : vec D (elim im rows) = 0 := by
      funext k
      have hk : (elim im rows).getD k false = false := by
        rw [List.getD_eq_getElem?_getD]
        by_cases hk : (k : ℕ) < (elim im rows).length
        · rw [List.getElem?_eq_getElem hk]
          exact h _ (List.getElem_mem hk)
        · rw [List.getElem?_eq_none (by omega)]
          rfl
      exact vec_zero hk
    rw [this, zero_sub] at hd
    exact (Submodule.neg_mem_iff _).1 hd
  · intro j hj
    rw [List.findIdx?_eq_some_iff_getElem] at hj
    obtain ⟨hjl, h1, -⟩ := hj
    have hel := elim_length rows im hl hr
    have ok' : RowsOk D (rows ++ [(elim im rows, j)]) := by
      refine ⟨?_, ?_⟩
      · intro r hr'
        rcases List.mem_append.1 hr' with h | h
        · exact ok.each r h
        · rw [List.mem_singleton] at h
          subst h
          refine ⟨hel, by omega, ?_⟩
          rw [List.getD_eq_getElem?_getD, List.getElem?_eq_getElem hjl]
          exact h1
      · rw [List.pairwise_append]
        refine ⟨ok.tri, List.pairwise_singleton _ _, ?_⟩
        intro r hr' s hs
        rw [List.mem_singleton] at hs
        subst hs
        exact elim_zero rows im hl ok r hr'
    refine ⟨?_, ok', ?_⟩
    · have h2 := rank_eq _ ok'
      have h3 := Submodule.finrank_le (Spn D (rows ++ [(elim im rows, j)]))
      rw [h2] at h3
      simp at h3
      omega
    · rw [Spn_append]
      apply le_antisymm
      · refine sup_le le_sup_left ?_
        rw [Submodule.span_singleton_le_iff_mem]
        have e : vec D (elim im rows) = (vec D (elim im rows) - vec D im) + vec D im := by abel
        rw [e]
        exact Submodule.add_mem_sup hd (Submodule.mem_span_singleton_self _)
      · refine sup_le le_sup_left ?_
        rw [Submodule.span_singleton_le_iff_mem]
        have e : vec D im = -(vec D (elim im rows) - vec D im) + vec D (elim im rows) := by abel
        rw [e]
        exact Submodule.add_mem_sup ((Submodule.neg_mem_iff _).2 hd) (Submodule.mem_span_singleton_self _)

end Eclib.Sift
