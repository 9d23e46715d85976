import Verif.Egr.ImgModel
import Verif.Egr.Props
import Mathlib.Data.ZMod.Basic
import Mathlib.Algebra.Group.Pi.Lemmas

/-!
# C110: `comp_map_image` computes the order of the image
-/

namespace Eclib.Egr

open EgrSpec

/-! ## Specification -/

namespace EgrSpec

/-- the product of the cyclic groups -/
abbrev Prod' (moduli : ℕ → ℕ) (np : ℕ) : Type := (j : Fin np) → ZMod (moduli j)

/-- the subgroup generated by the first `npts` rows of a matrix -/
def rowSpan (moduli : ℕ → ℕ) (npts np : ℕ) (m : M) : AddSubgroup (Prod' moduli np) :=
  AddSubgroup.closure {v | ∃ i < npts, ∀ j : Fin np, v j = (m i j : ZMod (moduli j))}

end EgrSpec

/-! ## Subgroups -/

/-- one generator, number `k`, with image of order `m`, the others in the kernel -/
theorem final_pivot {A C : Type} [AddCommGroup A] [AddCommGroup C] {φ : A →+ C} {l : ℕ → A} {n m k : ℕ} (hkn : k < n)
    (hm : m = addOrderOf (φ (l k))) (hk : ∀ i, i < n → i ≠ k → φ (l i) = 0) :
    span (Function.update l k (m • l k)) n = span l n ⊓ φ.ker ∧ φ.ker.relIndex (span l n) = m := by
  set T : AddSubgroup A := AddSubgroup.closure {P | ∃ i, i < n ∧ i ≠ k ∧ l i = P} with hT
  have ht : T ≤ φ.ker := by
    rw [hT, AddSubgroup.closure_le]
    rintro P ⟨i, h1, h2, rfl⟩
    exact hk i h1 h2
  have gen : ∀ l' : ℕ → A, (∀ i, i ≠ k → l' i = l i) → span l' n = AddSubgroup.zmultiples (l' k) ⊔ T := by
    intro l' hl'
    unfold span
    rw [hT, AddSubgroup.zmultiples_eq_closure, ← AddSubgroup.closure_union]
    congr 1
    ext P
    constructor
    · rintro ⟨i, h1, h2⟩
      by_cases h : i = k
      · left; rw [← h2, h]; rfl
      · right; exact ⟨i, h1, h, by rw [← hl' i h]; exact h2⟩
    · rintro (h1 | ⟨i, h1, h2, h3⟩)
      · exact ⟨k, hkn, (Set.mem_singleton_iff.1 h1).symm⟩
      · exact ⟨i, h1, by rw [hl' i h2]; exact h3⟩
  have hs := gen l (fun _ _ => rfl)
  have hs' := gen (Function.update l k (m • l k)) (fun i hi => Function.update_of_ne hi _ _)
  rw [Function.update_self] at hs'
  constructor
  · rw [hs, hs']
    apply le_antisymm
    · refine sup_le ?_ (le_inf le_sup_right ht)
      rw [AddSubgroup.zmultiples_le]
      refine ⟨AddSubgroup.mem_sup_left ⟨m, natCast_zsmul _ _⟩, ?_⟩
      show φ (m • l k) = 0
      rw [map_nsmul, hm, addOrderOf_nsmul_eq_zero]
    · rintro x ⟨h1, h2⟩
      obtain ⟨y, ⟨c, rfl⟩, z, hz, rfl⟩ := AddSubgroup.mem_sup.1 h1
      have hz0 : φ z = 0 := ht hz
      have h3 : φ (c • l k + z) = 0 := h2
      rw [map_add, hz0, add_zero, map_zsmul, ← addOrderOf_dvd_iff_zsmul_eq_zero, ← hm] at h3
      obtain ⟨d, hd⟩ := h3
      refine AddSubgroup.mem_sup.2 ⟨_, ⟨d, rfl⟩, z, hz, ?_⟩
      show d • (m • l k) + z = c • l k + z
      rw [← natCast_zsmul, smul_smul, hd, mul_comm]
  · rw [AddSubgroup.relIndex_ker, hs, AddSubgroup.map_sup, AddMonoidHom.map_zmultiples]
    have : T.map φ = ⊥ := by
      rw [AddSubgroup.map_eq_bot_iff]; exact ht
    rw [this, sup_bot_eq, Nat.card_zmultiples, hm]

theorem card_split {A C : Type} [AddCommGroup A] [AddCommGroup C] (φ : A →+ C) (H : AddSubgroup A) :
    Nat.card H = Nat.card (H ⊓ φ.ker : AddSubgroup A) * φ.ker.relIndex H := by
  have h := AddSubgroup.relIndex_mul_relIndex ⊥ (H ⊓ φ.ker) H bot_le inf_le_left
  rw [AddSubgroup.relIndex_bot_left, AddSubgroup.relIndex_bot_left, AddSubgroup.inf_relIndex_left] at h
  exact h.symm

theorem span_congr {A : Type} [AddCommGroup A] {l l' : ℕ → A} {n : ℕ} (h : ∀ i < n, l i = l' i) : span l n = span l' n := by
  unfold span
  congr 1
  ext P
  constructor
  · rintro ⟨i, h1, h2⟩; exact ⟨i, h1, by rw [← h i h1]; exact h2⟩
  · rintro ⟨i, h1, h2⟩; exact ⟨i, h1, by rw [h i h1]; exact h2⟩

/-- subtracting multiples of one vector from the others -/
theorem span_rows {A : Type} [AddCommGroup A] {l : ℕ → A} {n k : ℕ} (hk : k < n) (q : ℕ → ℤ) (hq : q k = 0) :
    span (fun i => l i - q i • l k) n = span l n := by
  apply span_eq
  · intro i hi
    exact sub_mem (mem_span hi) (zsmul_mem (mem_span hk) _)
  · intro i hi
    have h1 : l i - q i • l k ∈ span (fun i => l i - q i • l k) n := mem_span (l := fun i => l i - q i • l k) hi
    have h2 : l k ∈ span (fun i => l i - q i • l k) n := by
      have := mem_span (l := fun i => l i - q i • l k) hk
      simpa [hq] using this
    have := add_mem h1 (zsmul_mem h2 (q i))
    rwa [sub_add_cancel] at this

/-! ## Rows -/

/-- row `i` with the columns `< j` set to 0 and column `j` multiplied by `G` -/
def rowv (moduli : ℕ → ℕ) (np j : ℕ) (G : ℤ) (m : M) (i : ℕ) : Prod' moduli np := fun jj =>
  if (jj : ℕ) < j then 0 else if (jj : ℕ) = j then ((G * m i jj : ℤ) : ZMod (moduli jj)) else (m i jj : ZMod (moduli jj))

theorem cast_tmod (n : ℕ) (x : ℤ) : ((x.tmod n : ℤ) : ZMod n) = (x : ZMod n) := by
  have h := Int.tmod_add_mul_tdiv x n
  conv_rhs => rw [← h]
  push_cast
  rw [ZMod.natCast_self, zero_mul, add_zero]

theorem tmod_small {x : ℤ} {n : ℕ} (h : x.natAbs < n) : x.tmod n = x := by
  rcases Int.natAbs_eq x with e | e
  · rw [e, ← Int.ofNat_tmod, Nat.mod_eq_of_lt h]
  · rw [e, Int.neg_tmod, ← Int.ofNat_tmod, Nat.mod_eq_of_lt h]

variable {moduli : ℕ → ℕ} {np : ℕ}

/-- passing to the next column when the entries of column `j` are 0 -/
theorem rowv_next {j : ℕ} {G : ℤ} {m m' : M} {i : ℕ} (hc : ((G * m i j : ℤ) : ZMod (moduli j)) = 0)
    (hm : ∀ jj, jj ≠ j → m' i jj = m i jj) :
    rowv moduli np (j + 1) 1 m' i = rowv moduli np j G m i := by
  funext jj
  unfold rowv
  by_cases h1 : (jj : ℕ) < j
  · rw [if_pos h1, if_pos (by omega)]
  · rw [if_neg h1]
    by_cases h2 : (jj : ℕ) = j
    · rw [if_pos h2, if_pos (by omega)]
      rw [← h2] at hc
      exact hc.symm
    · rw [if_neg h2, if_neg (by omega)]
      rw [hm jj h2]
      split
      · rw [one_mul]
      · rfl

theorem colGcd_spec (m : M) (j : ℕ) (k : ℕ) : ∀ i g e, e ∣ colGcd m j k i g ↔
    e ∣ g ∧ ∀ i', i ≤ i' → i' < i + k → e ∣ (m i' j).natAbs := by
  induction k with
  | zero =>
    intro i g e
    exact ⟨fun h => ⟨h, fun i' h1 h2 => by omega⟩, fun h => h.1⟩
  | succ k ih =>
    intro i g e
    unfold colGcd
    by_cases h1 : g = 1
    · rw [if_pos h1, h1]
      constructor
      · intro h
        have := Nat.dvd_one.1 h
        subst this
        exact ⟨h, fun _ _ _ => one_dvd _⟩
      · exact fun h => h.1
    · rw [if_neg h1, ih, Nat.dvd_gcd_iff]
      constructor
      · rintro ⟨⟨a, b⟩, c⟩
        refine ⟨a, fun i' i1 i2 => ?_⟩
        by_cases hi : i' = i
        · rw [hi]; exact b
        · exact c i' (by omega) (by omega)
      · rintro ⟨a, b⟩
        exact ⟨⟨a, b i (le_refl i) (by omega)⟩, fun i' i1 i2 => b i' (by omega) (by omega)⟩

/-- the scaling of the column -/
theorem scaleCol_spec {m : M} {j npts md g : ℕ} (hmd : 0 < md) (hg : 0 < g)
    (hd : ∀ i < npts, (g : ℤ) ∣ m i j) (hb : ∀ i < npts, (m i j).natAbs < md) :
    (scaleCol m j md g).1 = ((md / Nat.gcd md g : ℕ) : ℤ) ∧
      (∀ i jj, jj ≠ j → (scaleCol m j md g).2 i jj = m i jj) ∧
      (∀ i < npts, m i j = g * (scaleCol m j md g).2 i j) ∧
      ∀ i < npts, ((scaleCol m j md g).2 i j).natAbs < md / Nat.gcd md g := by
  have gcdpos : 0 < Nat.gcd md g := Nat.gcd_pos_of_pos_left _ hmd
  have hgm : Int.gcd (g : ℤ) (md : ℤ) = Nat.gcd md g := by rw [Int.gcd_natCast_natCast, Nat.gcd_comm]
  obtain ⟨s, hs⟩ := Nat.gcd_dvd_left md g
  obtain ⟨t, ht⟩ := Nat.gcd_dvd_right md g
  set d := Nat.gcd md g with hddef
  have es : md / d = s := Nat.div_eq_of_eq_mul_right gcdpos hs
  have et : g / d = t := Nat.div_eq_of_eq_mul_right gcdpos ht
  have spos : 0 < s := by
    rcases Nat.eq_zero_or_pos s with h | h
    · rw [h] at hs; omega
    · exact h
  have tpos : 0 < t := by
    rcases Nat.eq_zero_or_pos t with h | h
    · rw [h] at ht; omega
    · exact h
  have dz : (d : ℤ) ≠ 0 := by exact_mod_cast gcdpos.ne'
  have tz : (t : ℤ) ≠ 0 := by exact_mod_cast tpos.ne'
  rw [es]
  -- the quotient
  have quo : ∀ i < npts, ∃ z, m i j = g * z ∧ z.natAbs * t < s := by
    intro i hi
    obtain ⟨z, hz⟩ := hd i hi
    refine ⟨z, hz, ?_⟩
    have h1 := hb i hi
    rw [hz, Int.natAbs_mul, Int.natAbs_natCast, hs] at h1
    have h2 : d * (z.natAbs * t) < d * s := by
      calc d * (z.natAbs * t) = (d * t) * z.natAbs := by ring
        _ = g * z.natAbs := by rw [← ht]
        _ < d * s := h1
    exact Nat.lt_of_mul_lt_mul_left h2
  unfold scaleCol
  by_cases h1 : 1 < g
  · rw [if_pos h1]
    simp only [hgm]
    have hmd' : (if 1 < d then (md : ℤ).tdiv d else md) = (s : ℤ) := by
      split
      · rw [hs]; push_cast; exact Int.mul_tdiv_cancel_left _ dz
      · have : d = 1 := by omega
        rw [hs, this]; simp
    have hg' : (if 1 < d then g / d else g) = t := by
      split
      · exact et
      · have : d = 1 := by omega
        rw [this, one_mul] at ht
        exact ht
    rw [hmd', hg']
    set m' := if 1 < d then setCol m j (fun x => (x.tdiv d).tmod s) else m with hm'
    have m'1 : ∀ i jj, jj ≠ j → m' i jj = m i jj := by
      intro i jj hjj
      rw [hm']
      split
      · simp [setCol, hjj]
      · rfl
    have m'2 : ∀ i < npts, ∀ z, m i j = g * z → z.natAbs * t < s → m' i j = t * z := by
      intro i hi z hz hzb
      have hdz : m i j = d * (t * z) := by
        rw [hz]
        conv_lhs => rw [ht]
        push_cast; ring
      rw [hm']
      split
      · simp only [setCol, if_pos]
        rw [hdz, Int.mul_tdiv_cancel_left _ dz]
        apply tmod_small
        rw [Int.natAbs_mul, Int.natAbs_natCast, mul_comm]; exact hzb
      · have : d = 1 := by omega
        rw [hdz, this]; simp
    have key : (∀ i jj, jj ≠ j → (if 1 < t then setCol m' j (fun x => (x.tdiv t).tmod s) else m') i jj = m i jj) ∧
        ∀ i < npts, ∀ z, m i j = g * z → z.natAbs * t < s →
          (if 1 < t then setCol m' j (fun x => (x.tdiv t).tmod s) else m') i j = z := by
      constructor
      · intro i jj hjj
        split
        · simp only [setCol, if_neg hjj]; exact m'1 i jj hjj
        · exact m'1 i jj hjj
      · intro i hi z hz hzb
        split
        · simp only [setCol, if_pos]
          rw [m'2 i hi z hz hzb, Int.mul_tdiv_cancel_left _ tz]
          apply tmod_small
          calc z.natAbs = z.natAbs * 1 := (mul_one _).symm
            _ ≤ z.natAbs * t := Nat.mul_le_mul_left _ tpos
            _ < s := hzb
        · have : t = 1 := by omega
          rw [m'2 i hi z hz hzb, this]; simp
    refine ⟨rfl, key.1, ?_, ?_⟩
    · intro i hi
      obtain ⟨z, hz, hzb⟩ := quo i hi
      rw [key.2 i hi z hz hzb]; exact hz
    · intro i hi
      obtain ⟨z, hz, hzb⟩ := quo i hi
      rw [key.2 i hi z hz hzb]
      calc z.natAbs = z.natAbs * 1 := (mul_one _).symm
        _ ≤ z.natAbs * t := Nat.mul_le_mul_left _ tpos
        _ < s := hzb
  · rw [if_neg h1]
    have hg1 : g = 1 := by omega
    have hd1 : d = 1 := by rw [hddef, hg1]; simp
    rw [hd1, one_mul] at hs
    refine ⟨by rw [hs], fun _ _ _ => rfl, fun i _ => by rw [hg1]; simp, fun i hi => by rw [← hs]; exact hb i hi⟩

/-! ## The search for an entry ±1 -/

theorem colMin_spec (m : M) (j npts : ℕ) (c : ℤ) :
    (colMin m j npts c).natAbs ≤ c.natAbs ∧ (∀ i < npts, m i j ≠ 0 → (colMin m j npts c).natAbs ≤ (m i j).natAbs) ∧
      (colMin m j npts c = c ∨ ∃ i < npts, m i j ≠ 0 ∧ colMin m j npts c = m i j) := by
  unfold colMin
  induction npts with
  | zero => simp
  | succ n ih =>
    rw [List.range_succ, List.foldl_append]
    simp only [List.foldl_cons, List.foldl_nil]
    set c' := (List.range n).foldl (fun c i => if m i j ≠ 0 ∧ (m i j).natAbs < c.natAbs then m i j else c) c
    obtain ⟨h1, h2, h3⟩ := ih
    split
    · rename_i h
      refine ⟨by omega, fun i hi h0 => ?_, Or.inr ⟨n, by omega, h.1, rfl⟩⟩
      by_cases e : i = n
      · rw [e]
      · have := h2 i (by omega) h0; omega
    · rename_i h
      refine ⟨h1, fun i hi h0 => ?_, ?_⟩
      · by_cases e : i = n
        · subst e
          by_contra hlt
          exact h ⟨h0, by omega⟩
        · exact h2 i (by omega) h0
      · rcases h3 with h3 | ⟨i, i1, i2, i3⟩
        · exact Or.inl h3
        · exact Or.inr ⟨i, by omega, i2, i3⟩

theorem rowOf_spec {m : M} {j npts : ℕ} {c : ℤ} (h : ∃ i < npts, m i j = c) :
    ∃ i, rowOf m j npts c = some i ∧ i < npts ∧ m i j = c := by
  unfold rowOf
  rcases hf : (List.range npts).find? (fun i => m i j == c) with _ | i
  · obtain ⟨i, hi, he⟩ := h
    rw [List.find?_eq_none] at hf
    have := hf i (List.mem_range.2 hi)
    simp [he] at this
  · have h1 := List.mem_of_find?_eq_some hf
    have h2 := List.find?_some hf
    exact ⟨i, rfl, List.mem_range.1 h1, by simpa using h2⟩

theorem reduceRows_row {j : ℕ} {G : ℤ} {m : M} {c : ℤ} {imin : ℕ} (i : ℕ) :
    rowv moduli np j G (reduceRows m j c imin) i =
      rowv moduli np j G m i -
        (if (m i j).tmod c ≠ 0 then (m i j - (m i j).tmod c).tdiv c else 0) • rowv moduli np j G m imin := by
  funext jj
  simp only [Pi.sub_apply, Pi.smul_apply]
  unfold rowv reduceRows
  by_cases h : (m i j).tmod c ≠ 0
  · simp only [if_pos h]
    split
    · simp
    · split
      · rw [zsmul_eq_mul]; push_cast; ring
      · rw [zsmul_eq_mul]; push_cast; ring
  · simp only [if_neg h]
    simp

theorem minLoop_spec {j npts : ℕ} {G : ℤ} (fuel : ℕ) : ∀ (m : M) (c : ℤ), c.natAbs ≤ fuel → 
    (∀ d : ℤ, (∀ i < npts, d ∣ m i j) → d ∣ 1) →
    (1 < c.natAbs ∧ (∃ i < npts, m i j ≠ 0 ∧ (m i j).natAbs < c.natAbs)) ∨ (c.natAbs = 1 ∧ ∃ i < npts, m i j = c) →
    ∃ m' c', minLoop j npts fuel m c = some (m', c') ∧ c'.natAbs = 1 ∧ (∃ i < npts, m' i j = c') ∧
      span (rowv moduli np j G m') npts = span (rowv moduli np j G m) npts := by
  have stop : ∀ fuel (m : M) (c : ℤ), c.natAbs = 1 → minLoop j npts fuel m c = some (m, c) := by
    intro fuel m c hc
    cases fuel with
    | zero => unfold minLoop; rw [if_neg (by omega)]
    | succ f => unfold minLoop; rw [if_neg (by omega)]
  induction fuel with
  | zero =>
    rintro m c hf hgcd (⟨h1, _⟩ | ⟨h1, h2⟩)
    · omega
    · omega
  | succ fuel ih =>
    rintro m c hf hgcd (⟨h1, i0, i1, i2, i3⟩ | ⟨h1, h2⟩)
    · obtain ⟨c1, c2, c3⟩ := colMin_spec m j npts c
      set c' := colMin m j npts c with hc'
      have hlt : c'.natAbs < c.natAbs := lt_of_le_of_lt (c2 i0 i1 i2) i3
      have hex : ∃ i < npts, m i j ≠ 0 ∧ c' = m i j := by
        rcases c3 with h | h
        · rw [h] at hlt; omega
        · exact h
      obtain ⟨ie, ie1, ie2, ie3⟩ := hex
      have hc0 : c' ≠ 0 := by rw [ie3]; exact ie2
      obtain ⟨imin, r1, r2, r3⟩ := rowOf_spec (m := m) (j := j) (npts := npts) (c := c') ⟨ie, ie1, ie3.symm⟩
      have e : minLoop j npts (fuel + 1) m c = minLoop j npts fuel (reduceRows m j c' imin) c' := by
        show (if c.natAbs > 1 then _ else _) = _
        rw [if_pos h1]
        simp only []
        rw [← hc', r1]; rfl
      rw [e]
      -- the entries of the column after the reduction
      have ent : ∀ i, reduceRows m j c' imin i j = (m i j).tmod c' ∨
          ((m i j).tmod c' = 0 ∧ reduceRows m j c' imin i j = m i j) := by
        intro i
        unfold reduceRows
        by_cases h : (m i j).tmod c' ≠ 0
        · left
          rw [if_pos h, r3]
          have hq : (m i j - (m i j).tmod c').tdiv c' = (m i j).tdiv c' := by
            have := Int.tmod_add_mul_tdiv (m i j) c'
            rw [show m i j - (m i j).tmod c' = c' * (m i j).tdiv c' by omega]
            exact Int.mul_tdiv_cancel_left _ hc0
          rw [hq]
          have := Int.tmod_add_mul_tdiv (m i j) c'
          linarith [mul_comm c' ((m i j).tdiv c')]
        · right
          rw [if_neg h]
          exact ⟨not_not.1 h, rfl⟩
      have hmin : reduceRows m j c' imin imin j = c' := by
        unfold reduceRows
        rw [r3, Int.tmod_self, if_neg (by simp)]
      have hspan : span (rowv moduli np j G (reduceRows m j c' imin)) npts = span (rowv moduli np j G m) npts := by
        have := span_rows (l := rowv moduli np j G m) (n := npts) (k := imin) r2
          (fun i => if (m i j).tmod c' ≠ 0 then (m i j - (m i j).tmod c').tdiv c' else 0)
          (by rw [r3, Int.tmod_self]; simp)
        rw [← this]
        exact span_congr (fun i _ => reduceRows_row i)
      have hgcd' : ∀ d : ℤ, (∀ i < npts, d ∣ reduceRows m j c' imin i j) → d ∣ 1 := by
        intro d hd
        apply hgcd
        intro i hi
        have hdc : d ∣ c' := by have := hd imin r2; rwa [hmin] at this
        have hdi := hd i hi
        rcases ent i with h | h
        · rw [h] at hdi
          have := Int.tmod_add_mul_tdiv (m i j) c'
          rw [← this]
          exact dvd_add hdi (Dvd.dvd.mul_right hdc _)
        · rw [h.2] at hdi; exact hdi
      have hnext : (1 < c'.natAbs ∧ (∃ i < npts, reduceRows m j c' imin i j ≠ 0 ∧
          (reduceRows m j c' imin i j).natAbs < c'.natAbs)) ∨
          (c'.natAbs = 1 ∧ ∃ i < npts, reduceRows m j c' imin i j = c') := by
        have hpos : 0 < c'.natAbs := Int.natAbs_pos.2 hc0
        by_cases h2 : c'.natAbs = 1
        · exact Or.inr ⟨h2, imin, r2, hmin⟩
        · left
          refine ⟨by omega, ?_⟩
          by_contra hno
          push Not at hno
          have : c' ∣ 1 := by
            apply hgcd
            intro i hi
            by_contra hnd
            have hne : (m i j).tmod c' ≠ 0 := fun h => hnd (Int.dvd_of_tmod_eq_zero h)
            have he : reduceRows m j c' imin i j = (m i j).tmod c' := by
              rcases ent i with h | h
              · exact h
              · exact absurd h.1 hne
            have hh := hno i hi (by rw [he]; exact hne)
            rw [he, Int.natAbs_tmod] at hh
            have := Nat.mod_lt (m i j).natAbs hpos
            omega
          have := Int.natAbs_dvd_natAbs.2 this
          have := Nat.dvd_one.1 this
          exact h2 this
      obtain ⟨m2, c2', g1, g2, g3, g4⟩ := ih (reduceRows m j c' imin) c' (by omega) hgcd' hnext
      exact ⟨m2, c2', g1, g2, g3, g4.trans hspan⟩
    · exact ⟨m, c, stop _ m c h1, h1, h2, rfl⟩

/-! ## One column -/

theorem clear_row {j : ℕ} {G : ℤ} {m : M} {c md : ℤ} {imin : ℕ} (i : ℕ)
    (hz : i ≠ imin → ((G * (m i j - m i j * c * m imin j) : ℤ) : ZMod (moduli j)) = 0)
    (hz' : ((md * (G * m imin j) : ℤ) : ZMod (moduli j)) = 0) :
    rowv moduli np (j + 1) 1 (clear moduli m j c md imin) i =
      if i = imin then md • rowv moduli np j G m imin
      else rowv moduli np j G m i - (m i j * c) • rowv moduli np j G m imin := by
  funext jj
  by_cases hi : i = imin
  · subst hi
    rw [if_pos rfl, Pi.smul_apply]
    unfold rowv clear
    by_cases h1 : (jj : ℕ) < j
    · rw [if_pos (by omega), if_pos h1, smul_zero]
    · rw [if_neg h1]
      by_cases h2 : (jj : ℕ) = j
      · rw [if_pos (by omega), if_pos h2, zsmul_eq_mul, ← Int.cast_mul]
        rw [← h2] at hz'
        exact hz'.symm
      · rw [if_neg (by omega), if_neg h2, if_pos rfl]
        have e : ∀ x : ℤ, (if (jj : ℕ) = j + 1 then ((1 * x : ℤ) : ZMod (moduli jj)) else (x : ZMod (moduli jj))) =
          (x : ZMod (moduli jj)) := by intro x; split <;> simp
        rw [e, cast_tmod, zsmul_eq_mul]; push_cast; rfl
  · rw [if_neg hi, Pi.sub_apply, Pi.smul_apply]
    have hz := hz hi
    unfold rowv clear
    by_cases h1 : (jj : ℕ) < j
    · rw [if_pos (by omega), if_pos h1, if_pos h1, smul_zero, sub_zero]
    · rw [if_neg h1, if_neg h1]
      by_cases h2 : (jj : ℕ) = j
      · rw [if_pos (by omega), if_pos h2, if_pos h2, zsmul_eq_mul]
        have h3 : ((G * (m i j - m i j * c * m imin j) : ℤ) : ZMod (moduli jj)) = 0 := by rw [h2]; exact hz
        rw [← h3, h2]
        push_cast; ring
      · rw [if_neg (by omega), if_neg h2, if_neg h2, if_neg hi]
        have e : ∀ x : ℤ, (if (jj : ℕ) = j + 1 then ((1 * x : ℤ) : ZMod (moduli jj)) else (x : ZMod (moduli jj))) =
          (x : ZMod (moduli jj)) := by intro x; split <;> simp
        rw [e, cast_tmod, zsmul_eq_mul]; push_cast; ring

theorem colStep_spec {npts j : ℕ} (hj : j < np) (hpos : 0 < moduli j) (s : M × ℤ) :
    ∃ s', colStep moduli npts j s = some s' ∧
      (Nat.card (span (rowv moduli np j 1 s.1) npts) : ℤ) * s.2 =
        (Nat.card (span (rowv moduli np (j + 1) 1 s'.1) npts) : ℤ) * s'.2 := by
  unfold colStep
  simp only []
  by_cases h1 : (moduli j : ℤ) = 1
  · rw [if_pos h1]
    refine ⟨s, rfl, ?_⟩
    refine congrArg (fun H : AddSubgroup (Prod' moduli np) => (Nat.card H : ℤ) * s.2) (span_congr (fun i _ => (rowv_next ?_ (fun _ _ => rfl)).symm))
    have : moduli j = 1 := by exact_mod_cast h1
    rw [this]
    exact Subsingleton.elim _ _
  rw [if_neg h1]
  set m := setCol s.1 j (fun x => x.tmod (moduli j)) with hm
  have hm1 : ∀ i jj, jj ≠ j → m i jj = s.1 i jj := by
    intro i jj h; simp [hm, setCol, h]
  have hm2 : ∀ i, m i j = (s.1 i j).tmod (moduli j) := by
    intro i; simp [hm, setCol]
  have hrow : ∀ i, rowv moduli np j 1 m i = rowv moduli np j 1 s.1 i := by
    intro i
    funext jj
    unfold rowv
    split
    · rfl
    · split
      · rename_i h2
        rw [one_mul, one_mul, h2, hm2]
        exact h2 ▸ cast_tmod (moduli jj) _
      · rename_i h2
        rw [hm1 i jj h2]
  have hspan1 : span (rowv moduli np j 1 s.1) npts = span (rowv moduli np j 1 m) npts :=
    span_congr (fun i _ => (hrow i).symm)
  have hbound : ∀ i, (m i j).natAbs < moduli j := by
    intro i
    rw [hm2, Int.natAbs_tmod, Int.natAbs_natCast]
    exact Nat.mod_lt _ hpos
  have hgs := colGcd_spec m j npts 0 0
  set g := colGcd m j npts 0 0 with hgdef
  have hgd : ∀ e : ℕ, e ∣ g ↔ ∀ i < npts, e ∣ (m i j).natAbs := by
    intro e
    rw [hgs e]
    constructor
    · intro h i hi; exact h.2 i (by omega) (by omega)
    · intro h; exact ⟨dvd_zero _, fun i _ hi => h i (by omega)⟩
  by_cases hg0 : g = 0
  · rw [if_pos hg0]
    refine ⟨(m, s.2), rfl, ?_⟩
    rw [hspan1]
    refine congrArg (fun H : AddSubgroup (Prod' moduli np) => (Nat.card H : ℤ) * s.2) (span_congr (fun i hi => (rowv_next ?_ (fun _ _ => rfl)).symm))
    have h0 := (hgd 0).1 (by rw [hg0]) i hi
    have : m i j = 0 := Int.natAbs_eq_zero.1 (Nat.eq_zero_of_zero_dvd h0)
    rw [this]; simp
  rw [if_neg hg0]
  have hgpos : 0 < g := Nat.pos_of_ne_zero hg0
  obtain ⟨k1, k2, k3, k4⟩ := scaleCol_spec (m := m) (j := j) (npts := npts) hpos hgpos
    (fun i hi => Int.natCast_dvd.2 ((hgd g).1 dvd_rfl i hi)) (fun i _ => hbound i)
  set r := scaleCol m j (moduli j) g with hr
  set n' := moduli j / Nat.gcd (moduli j) g with hn'
  have hn'pos : 0 < n' := Nat.div_pos (Nat.le_of_dvd hpos (Nat.gcd_dvd_left _ _)) (Nat.gcd_pos_of_pos_left _ hpos)
  have hrowG : ∀ i < npts, rowv moduli np j g r.2 i = rowv moduli np j 1 m i := by
    intro i hi
    funext jj
    unfold rowv
    split
    · rfl
    · split
      · rename_i h2
        rw [one_mul, h2, k3 i hi]
      · rename_i h2
        rw [k2 i jj h2]
  have hspan2 : span (rowv moduli np j 1 m) npts = span (rowv moduli np j g r.2) npts :=
    span_congr (fun i hi => (hrowG i hi).symm)
  by_cases hr1 : r.1 = 1
  · rw [if_pos hr1]
    refine ⟨(r.2, s.2), rfl, ?_⟩
    rw [hspan1, hspan2]
    refine congrArg (fun H : AddSubgroup (Prod' moduli np) => (Nat.card H : ℤ) * s.2) (span_congr (fun i hi => (rowv_next ?_ (fun _ _ => rfl)).symm))
    have hn1 : n' = 1 := by rw [k1] at hr1; exact_mod_cast hr1
    have hdvd : moduli j ∣ g := by
      have h2 : moduli j = Nat.gcd (moduli j) g := by
        have := Nat.div_mul_cancel (Nat.gcd_dvd_left (moduli j) g)
        rw [← hn', hn1, one_mul] at this
        exact this.symm
      rw [h2]; exact Nat.gcd_dvd_right _ _
    push_cast
    rw [(ZMod.natCast_eq_zero_iff g (moduli j)).2 hdvd, zero_mul]
  rw [if_neg hr1]
  have hn2 : 1 < n' := by
    rw [k1] at hr1
    have : n' ≠ 1 := fun h => hr1 (by rw [h]; rfl)
    omega
  -- the gcd of the scaled column is 1
  have hgcd1 : ∀ d : ℤ, (∀ i < npts, d ∣ r.2 i j) → d ∣ 1 := by
    intro d hd
    have h2 : g * d.natAbs ∣ g := by
      rw [hgd]
      intro i hi
      rw [k3 i hi, Int.natAbs_mul, Int.natAbs_natCast]
      exact Nat.mul_dvd_mul_left _ (Int.natAbs_dvd_natAbs.2 (hd i hi))
    have h3 : d.natAbs ∣ 1 := Nat.dvd_of_mul_dvd_mul_left hgpos (by rw [mul_one]; exact h2)
    exact Int.natAbs_dvd_natAbs.1 h3
  have hstart : ∃ i < npts, r.2 i j ≠ 0 ∧ (r.2 i j).natAbs < r.1.natAbs := by
    by_contra hno
    push Not at hno
    have : (0 : ℤ) ∣ 1 := by
      apply hgcd1
      intro i hi
      by_cases h0 : r.2 i j = 0
      · rw [h0]
      · have h5 := hno i hi h0
        have h6 := k4 i hi
        rw [k1, Int.natAbs_natCast] at h5
        omega
    simp at this
  obtain ⟨m3, c, l1, l2, l3, l4⟩ := minLoop_spec (moduli := moduli) (np := np) (G := g) r.1.natAbs r.2 r.1 (le_refl _) hgcd1
    (Or.inl ⟨by rw [k1, Int.natAbs_natCast]; exact hn2, hstart⟩)
  rw [l1, Option.bind_some]
  obtain ⟨imin, q1, q2, q3⟩ := rowOf_spec l3
  simp only []
  rw [q1, Option.map_some]
  refine ⟨_, rfl, ?_⟩
  rw [hspan1, hspan2, ← l4]
  -- the rows after clearing
  have hcc : c * c = 1 := by
    rcases Int.natAbs_eq c with h | h <;> rw [h, l2] <;> rfl
  set q : ℕ → ℤ := fun i => if i = imin then 0 else m3 i j * c with hq
  have hspan3 := span_rows (l := rowv moduli np j g m3) (n := npts) (k := imin) q2 q (by simp [hq])
  set l := fun i => rowv moduli np j g m3 i - q i • rowv moduli np j g m3 imin with hl
  have hlmin : l imin = rowv moduli np j g m3 imin := by simp [hl, hq]
  let φ : Prod' moduli np →+ ZMod (moduli j) := Pi.evalAddMonoidHom (fun jj : Fin np => ZMod (moduli jj)) ⟨j, hj⟩
  have hφ : ∀ i, φ (rowv moduli np j g m3 i) = (((g : ℤ) * m3 i j : ℤ) : ZMod (moduli j)) := by
    intro i
    show rowv moduli np j g m3 i ⟨j, hj⟩ = _
    unfold rowv
    rw [if_neg (by simp), if_pos rfl]
  have hord : n' = addOrderOf (φ (l imin)) := by
    rw [hlmin, hφ, order_int hpos, q3, Int.natAbs_mul, l2, mul_one, Int.natAbs_natCast]
  have hker : ∀ i, i < npts → i ≠ imin → φ (l i) = 0 := by
    intro i _ hi
    show φ (rowv moduli np j g m3 i - q i • rowv moduli np j g m3 imin) = 0
    rw [map_sub, map_zsmul, hφ, hφ, q3, zsmul_eq_mul, ← Int.cast_mul, ← Int.cast_sub]
    simp only [hq, if_neg hi]
    rw [show (g : ℤ) * m3 i j - m3 i j * c * (g * c) = g * m3 i j * (1 - c * c) by ring, hcc]
    simp
  obtain ⟨f1, f2⟩ := final_pivot (φ := φ) (l := l) q2 hord hker
  have hclear : span (rowv moduli np (j + 1) 1 (clear moduli m3 j c r.1 imin)) npts =
      span (Function.update l imin (n' • l imin)) npts := by
    apply span_congr
    intro i hi
    rw [clear_row (G := g) i]
    · by_cases h : i = imin
      · rw [if_pos h, h, Function.update_self, hlmin, k1, natCast_zsmul]
      · rw [if_neg h, Function.update_of_ne h]
        simp only [hl, hq, if_neg h]
    · intro _
      rw [q3, show (g : ℤ) * (m3 i j - m3 i j * c * c) = g * m3 i j * (1 - c * c) by ring, hcc]
      simp
    · rw [q3, k1]
      have h2 : moduli j ∣ n' * g := by
        have h3 := Nat.div_mul_cancel (Nat.gcd_dvd_left (moduli j) g)
        rw [← hn'] at h3
        calc moduli j = n' * Nat.gcd (moduli j) g := h3.symm
          _ ∣ n' * g := Nat.mul_dvd_mul_left _ (Nat.gcd_dvd_right _ _)
      have h3 : ((n' * g : ℕ) : ZMod (moduli j)) = 0 := (ZMod.natCast_eq_zero_iff _ _).2 h2
      push_cast at h3 ⊢
      rw [← mul_assoc, h3, zero_mul]
  simp only []
  rw [hclear, f1, ← hspan3, card_split φ (span l npts), f2, k1]
  push_cast
  ring

/-- **C110** (`comp_map_image`): for positive moduli the loops terminate and the function returns the order of the group generated by
the rows of the matrix in the product of the cyclic groups. -/
theorem C110_comp_map_image (moduli : ℕ → ℕ) (npts np : ℕ) (m : M) (hpos : ∀ j < np, 0 < moduli j) :
    compMapImage moduli npts np m = some (Nat.card (rowSpan moduli npts np m) : ℤ) := by
  have loop : ∀ k, k ≤ np → ∃ s, imgLoop moduli npts m k = some s ∧
      (Nat.card (span (rowv moduli np 0 1 m) npts) : ℤ) = Nat.card (span (rowv moduli np k 1 s.1) npts) * s.2 := by
    intro k
    induction k with
    | zero => intro _; exact ⟨(m, 1), rfl, by simp⟩
    | succ k ih =>
      intro hk
      obtain ⟨s, h1, h2⟩ := ih (by omega)
      obtain ⟨s', h3, h4⟩ := colStep_spec (moduli := moduli) (np := np) (npts := npts) (j := k) (by omega) (hpos k (by omega)) s
      exact ⟨s', by simp only [imgLoop, h1, Option.bind_some, h3], h2.trans h4⟩
  obtain ⟨s, h1, h2⟩ := loop np (le_refl np)
  unfold compMapImage
  rw [h1, Option.map_some]
  have e0 : span (rowv moduli np 0 1 m) npts = rowSpan moduli npts np m := by
    unfold span rowSpan
    congr 1
    ext v
    have hv : ∀ i, rowv moduli np 0 1 m i = fun jj : Fin np => (m i jj : ZMod (moduli jj)) := by
      intro i
      funext jj
      unfold rowv
      rw [if_neg (by omega), one_mul]
      split <;> rfl
    constructor
    · rintro ⟨i, hi, rfl⟩
      exact ⟨i, hi, fun jj => by rw [hv]⟩
    · rintro ⟨i, hi, h⟩
      exact ⟨i, hi, by rw [hv]; funext jj; exact (h jj).symm⟩
  have e1 : span (rowv moduli np np 1 s.1) npts = ⊥ := by
    rw [eq_bot_iff]
    apply span_le
    intro i _
    rw [AddSubgroup.mem_bot]
    funext jj
    unfold rowv
    rw [if_pos jj.2]; rfl
  rw [e0, e1, AddSubgroup.card_bot, Nat.cast_one, one_mul] at h2
  rw [h2]

/-! ## Example -/

/-- three points, moduli 6, 4, 2: the image has order 24 -/
def imEx : M := fun i j => (((#[#[4, 2, 1], #[3, 1, 0], #[2, 2, 1]] : Array (Array ℤ)).getD i #[]).getD j 0)
def modEx : ℕ → ℕ := fun j => (#[6, 4, 2] : Array ℕ).getD j 1

example : compMapImage modEx 3 3 imEx = some 24 := by decide +kernel
example := C110_comp_map_image modEx 3 3 imEx (by decide)

end Eclib.Egr
