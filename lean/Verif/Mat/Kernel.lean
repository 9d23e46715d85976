import Mathlib.Algebra.BigOperators.Fin
import Mathlib.Algebra.BigOperators.Group.List.Basic
import Mathlib.LinearAlgebra.FiniteDimensional.Basic
import Mathlib.LinearAlgebra.FiniteDimensional.Lemmas
import Mathlib.LinearAlgebra.Dimension.Constructions
import Mathlib.Data.List.GetD
import Verif.Mat.Lin

/-!
# Echelon form, rank and null space over a field

Specification of the reduced echelon form and general facts about null vectors of echelon matrices.
-/

namespace Eclib.Mat

/-- reduced row echelon form with the given pivotal columns and pivots equal to `d` -/
structure IsRREF (F : Type) [Field F] (nc : Nat) (d : F) (rows : List Row) (pc : List Nat) : Prop where
  sorted : pc.Pairwise (· < ·)
  lt : ∀ c ∈ pc, c < nc
  len : rows.length = pc.length
  piv : ∀ i j, i < pc.length → j < pc.length →
    ent F (rows.getD i []) (pc.getD j 0) = if i = j then d else 0
  left : ∀ i, i < pc.length → ∀ k < pc.getD i 0, ent F (rows.getD i []) k = 0

/-- The columns of the `nc × pivots.length` matrix `B` form a basis of the null space over `F` of the
given rows, and the submatrix of the rows `pivots` of `B` is `d` times the identity. -/
structure IsKernelBasis (F : Type) [Field F] (nc : Nat) (rows : List Row) (d : F) (pivots : List Nat)
    (B : M) : Prop where
  null : ∀ j < pivots.length, IsNull F nc rows fun i => ((B.get i j : ℤ) : F)
  block : ∀ i < pivots.length, ∀ j < pivots.length,
    ((B.get (pivots.getD i 0) j : ℤ) : F) = if i = j then d else 0
  complete : ∀ v : Fin nc → F, IsNull F nc rows v →
    ∃! x : Fin pivots.length → F, ∀ i, v i = ∑ j, x j * ((B.get i j : ℤ) : F)

variable {F : Type} [Field F]

theorem perm_split {nc : Nat} {pc : List Nat} (hs : pc.Pairwise (· < ·)) (hl : ∀ c ∈ pc, c < nc) :
    (List.range nc).Perm (pc ++ nonPivots nc pc) := by
  rw [List.perm_ext_iff_of_nodup List.nodup_range]
  · intro a
    simp only [List.mem_range, List.mem_append, nonPivots, List.mem_filter, decide_eq_true_eq]
    constructor
    · intro h
      by_cases ha : a ∈ pc
      · exact Or.inl ha
      · exact Or.inr ⟨h, ha⟩
    · rintro (h | h)
      · exact hl a h
      · exact h.1
  · rw [List.nodup_append]
    refine ⟨hs.imp ne_of_lt, (List.nodup_range.filter _), ?_⟩
    rintro a ha b hb rfl
    simp [nonPivots, ha] at hb

theorem length_split {nc : Nat} {pc : List Nat} (hs : pc.Pairwise (· < ·)) (hl : ∀ c ∈ pc, c < nc) :
    pc.length + (nonPivots nc pc).length = nc := by
  have := (perm_split hs hl).length_eq
  rw [List.length_range, List.length_append] at this
  exact this.symm

theorem sum_split {nc : Nat} {pc : List Nat} (hs : pc.Pairwise (· < ·)) (hl : ∀ c ∈ pc, c < nc)
    (f : Nat → F) :
    ∑ j : Fin nc, f j = (pc.map f).sum + ((nonPivots nc pc).map f).sum := by
  rw [← List.sum_append, ← List.map_append, ← ((perm_split hs hl).map f).sum_eq,
    Fin.sum_univ_eq_sum_range]
  induction nc with
  | zero => simp
  | succ n ih =>
    clear ih hl
    induction n + 1 with
    | zero => simp
    | succ n ih => rw [Finset.sum_range_succ, List.sum_range_succ, ih]

/-- a vector orthogonal to the rows of an echelon form and zero at the other columns is zero -/
theorem null_eq_zero {nc : Nat} {rows : List Row} {pc : List Nat} (he : IsEchelon F nc rows pc)
    (w : Fin nc → F) (hw : IsNull F nc rows w) (h0 : ∀ i : Fin nc, (i : Nat) ∉ pc → w i = 0) :
    w = 0 := by
  have key : ∀ n, ∀ i : Fin nc, nc - i ≤ n → w i = 0 := by
    intro n
    induction n with
    | zero => intro i hi; have := i.2; omega
    | succ n ih =>
      intro i hi
      by_cases hp : (i : Nat) ∈ pc
      · obtain ⟨row, hrow, hne, hz⟩ := forall₂_mem_right he.piv i hp
        have hsum := hw row hrow
        rw [Finset.sum_eq_single i] at hsum
        · exact (mul_eq_zero.1 hsum).resolve_left hne
        · intro k _ hki
          rcases lt_or_gt_of_ne (fun h => hki (Fin.ext h) : (k : Nat) ≠ i) with hlt | hgt
          · rw [hz k hlt, zero_mul]
          · rw [ih k (by have := i.2; omega), mul_zero]
        · intro h; exact absurd (Finset.mem_univ _) h
      · exact h0 i hp
  funext i
  exact key nc i (by omega)

theorem isNull_sub {nc : Nat} {rows : List Row} {v w : Fin nc → F} (hv : IsNull F nc rows v)
    (hw : IsNull F nc rows w) : IsNull F nc rows (v - w) := by
  intro r hr
  simp only [Pi.sub_apply, mul_sub, Finset.sum_sub_distrib, hv r hr, hw r hr, sub_zero]

theorem isNull_comb {nc n : Nat} {rows : List Row} {v : Fin n → Fin nc → F} (x : Fin n → F)
    (hv : ∀ j, IsNull F nc rows (v j)) : IsNull F nc rows (fun i => ∑ j, x j * v j i) := by
  intro r hr
  simp only [Finset.mul_sum]
  rw [Finset.sum_comm]
  apply Finset.sum_eq_zero
  intro j _
  have := hv j r hr
  calc ∑ i : Fin nc, ent F r i * (x j * v j i) = x j * ∑ i : Fin nc, ent F r i * v j i := by
        rw [Finset.mul_sum]; exact Finset.sum_congr rfl fun i _ => by ring
    _ = 0 := by rw [this, mul_zero]

/-- the null columns with the identity block are a basis of the null space -/
theorem isKernelBasis_of {nc : Nat} {init rows : List Row} {pc : List Nat} {d : F} (hd : d ≠ 0)
    {B : M} (he : IsEchelon F nc rows pc) (hspan : rowSpan F nc rows = rowSpan F nc init)
    (hnull : ∀ j < (nonPivots nc pc).length, IsNull F nc rows fun i => ((B.get i j : ℤ) : F))
    (hblock : ∀ i < (nonPivots nc pc).length, ∀ j < (nonPivots nc pc).length,
      ((B.get ((nonPivots nc pc).getD i 0) j : ℤ) : F) = if i = j then d else 0) :
    IsKernelBasis F nc init d (nonPivots nc pc) B := by
  refine ⟨fun j hj => (isNull_congr hspan _).1 (hnull j hj), hblock, ?_⟩
  intro v hv
  have hv := (isNull_congr hspan _).2 hv
  set np := nonPivots nc pc with hnp
  have hnplt : ∀ j < np.length, np.getD j 0 < nc := by
    intro j hj
    have : np.getD j 0 ∈ np := by
      rw [List.getD_eq_getElem _ _ hj]; exact List.getElem_mem hj
    rw [hnp, nonPivots, List.mem_filter, List.mem_range] at this
    exact this.1
  have hval : ∀ (x : Fin np.length → F) (j : Fin np.length),
      ∑ j', x j' * ((B.get (np.getD j 0) j' : ℤ) : F) = x j * d := by
    intro x j
    rw [Finset.sum_eq_single j]
    · rw [hblock j j.2 j j.2, if_pos rfl]
    · intro k _ hk
      rw [hblock j j.2 k k.2, if_neg (fun h => hk (Fin.ext h.symm)), mul_zero]
    · intro h; exact absurd (Finset.mem_univ _) h
  refine ⟨fun j => v ⟨np.getD j 0, hnplt j j.2⟩ / d, ?_, ?_⟩
  · have hz := null_eq_zero he (v - fun i : Fin nc => ∑ j : Fin np.length, (v ⟨np.getD j 0, hnplt j j.2⟩ / d) * ((B.get i j : ℤ) : F))
      (isNull_sub hv (isNull_comb _ fun j => hnull j j.2)) ?_
    · intro i
      have := congrFun hz i
      simp only [Pi.sub_apply, Pi.zero_apply] at this
      exact sub_eq_zero.1 this
    · intro i hi
      have hm : (i : Nat) ∈ np := by
        rw [hnp, nonPivots, List.mem_filter, List.mem_range]
        exact ⟨i.2, by simpa using hi⟩
      obtain ⟨k, hk, hki⟩ := List.mem_iff_getElem.1 hm
      have hki' : np.getD k 0 = i := by rw [List.getD_eq_getElem _ _ hk]; exact hki
      have h2 := hval (fun j => v ⟨np.getD j 0, hnplt j j.2⟩ / d) ⟨k, hk⟩
      simp only [Pi.sub_apply]
      simp only [hki'] at h2
      rw [h2, div_mul_cancel₀ _ hd, sub_eq_zero]
  · intro x hx
    funext j
    have := hx ⟨np.getD j 0, hnplt j j.2⟩
    rw [hval x j] at this
    rw [this, mul_div_cancel_right₀ _ hd]

theorem IsRREF.toEchelon {nc : Nat} {d : F} (hd : d ≠ 0) {rows : List Row} {pc : List Nat}
    (h : IsRREF F nc d rows pc) : IsEchelon F nc rows pc := by
  refine ⟨h.sorted, h.lt, ?_⟩
  rw [List.forall₂_iff_get]
  refine ⟨h.len, fun i h1 h2 => ?_⟩
  have e1 : rows.get ⟨i, h1⟩ = rows.getD i [] := (List.getD_eq_getElem _ _ h1).symm
  have e2 : pc.get ⟨i, h2⟩ = pc.getD i 0 := (List.getD_eq_getElem _ _ h2).symm
  rw [e1, e2]
  refine ⟨?_, h.left i h2⟩
  rw [h.piv i i h2 h2, if_pos rfl]; exact hd

/-- the rank is the number of pivots -/
theorem IsRREF.finrank {nc : Nat} {d : F} (hd : d ≠ 0) {rows : List Row} {pc : List Nat}
    (h : IsRREF F nc d rows pc) : Module.finrank F (rowSpan F nc rows) = pc.length := by
  have hli : LinearIndependent F fun i : Fin pc.length => vecF F nc (rows.getD i []) := by
    rw [Fintype.linearIndependent_iff]
    intro g hg i
    have hlt : pc.getD i 0 < nc := h.lt _ (by rw [List.getD_eq_getElem _ _ i.2]; exact List.getElem_mem i.2)
    have := congrFun hg ⟨pc.getD i 0, hlt⟩
    rw [Finset.sum_apply, Finset.sum_eq_single i] at this
    · simp only [Pi.smul_apply, smul_eq_mul, vecF, Pi.zero_apply] at this
      rw [h.piv i i i.2 i.2, if_pos rfl] at this
      exact (mul_eq_zero.1 this).resolve_right hd
    · intro k _ hk
      simp only [Pi.smul_apply, smul_eq_mul, vecF]
      rw [h.piv k i k.2 i.2, if_neg (fun he => hk (Fin.ext he)), mul_zero]
    · intro hh; exact absurd (Finset.mem_univ _) hh
  have := finrank_span_eq_card hli
  rw [Fintype.card_fin] at this
  rw [← this, rowSpan]
  have e : {v | ∃ r ∈ rows, v = vecF F nc r} =
      Set.range fun i : Fin pc.length => vecF F nc (rows.getD i []) := by
    ext v
    simp only [Set.mem_ofPred_eq, Set.mem_range]
    constructor
    · rintro ⟨r, hr, rfl⟩
      obtain ⟨i, hi, rfl⟩ := List.mem_iff_getElem.1 hr
      exact ⟨⟨i, h.len ▸ hi⟩, by rw [List.getD_eq_getElem _ _ hi]⟩
    · rintro ⟨i, rfl⟩
      have hi : (i : Nat) < rows.length := by rw [h.len]; exact i.2
      exact ⟨_, by rw [List.getD_eq_getElem _ _ hi]; exact List.getElem_mem hi, rfl⟩
  rw [e]

/-- scaling the rows does not change the row space -/
theorem rowSpan_scaled {nc : Nat} {rows rows' : List Row}
    (h : List.Forall₂ (fun r r' => ∃ a : F, a ≠ 0 ∧ ∀ k < nc, ent F r' k = a * ent F r k) rows rows') :
    rowSpan F nc rows' = rowSpan F nc rows := by
  apply le_antisymm
  · rw [rowSpan_le]
    intro r' hr'
    obtain ⟨r, hr, a, ha, hk⟩ := forall₂_mem_right h r' hr'
    rw [vecF_smul hk]
    exact Submodule.smul_mem _ _ (mem_rowSpan hr)
  · rw [rowSpan_le]
    intro r hr
    obtain ⟨r', hr', a, ha, hk⟩ := forall₂_mem_left h r hr
    have := Submodule.smul_mem _ a⁻¹ (mem_rowSpan (F := F) (nc := nc) hr')
    rwa [vecF_smul hk, smul_smul, inv_mul_cancel₀ ha, one_smul] at this

/-- reading off the reduced form from the row-wise facts -/
theorem isRREF_of {nc : Nat} {d : F} {rows : List Row} {pc : List Nat} (hs : pc.Pairwise (· < ·))
    (hl : ∀ c ∈ pc, c < nc)
    (h : List.Forall₂ (fun row c => ent F row c = d ∧ (∀ k < c, ent F row k = 0) ∧
      ∀ c' ∈ pc, c' ≠ c → ent F row c' = 0) rows pc) : IsRREF F nc d rows pc := by
  have hn : pc.Nodup := hs.imp ne_of_lt
  rw [List.forall₂_iff_get] at h
  have key : ∀ i, i < pc.length → ent F (rows.getD i []) (pc.getD i 0) = d ∧
      (∀ k < pc.getD i 0, ent F (rows.getD i []) k = 0) ∧
      ∀ c' ∈ pc, c' ≠ pc.getD i 0 → ent F (rows.getD i []) c' = 0 := by
    intro i hi
    have hi' : i < rows.length := by rw [h.1]; exact hi
    have := h.2 i hi' hi
    rw [List.getD_eq_getElem _ _ hi, List.getD_eq_getElem _ _ hi']
    exact this
  refine ⟨hs, hl, h.1, fun i j hi hj => ?_, fun i hi => (key i hi).2.1⟩
  split_ifs with hij
  · subst hij; exact (key i hi).1
  · apply (key i hi).2.2
    · rw [List.getD_eq_getElem _ _ hj]; exact List.getElem_mem hj
    · rw [List.getD_eq_getElem _ _ hj, List.getD_eq_getElem _ _ hi]
      intro he
      exact hij ((List.Nodup.getElem_inj_iff hn).1 he).symm

theorem nonPivots_nil {nc : Nat} {pc : List Nat} (hs : pc.Pairwise (· < ·)) (hl : ∀ c ∈ pc, c < nc)
    (h : nonPivots nc pc = []) : pc = List.range nc := by
  have := perm_split hs hl
  rw [h, List.append_nil] at this
  exact List.Perm.eq_of_pairwise (fun a b _ _ h1 h2 => absurd h1 (not_lt.2 h2.le)) hs
    List.pairwise_lt_range this.symm

theorem unitRow_get {nc c k : Nat} (hk : k < nc) : (unitRow nc c).getD k 0 = if k = c then 1 else 0 := by
  unfold unitRow
  rw [List.getD_eq_getElem _ _ (by simpa using hk)]
  simp

theorem M.get_ofFn {nr nc : Nat} {f : Nat → Nat → Int} {i j : Nat} (hi : i < nr) (hj : j < nc) :
    (M.ofFn nr nc f).get i j = f i j := by
  unfold M.get M.ofFn
  simp [hi, hj]

theorem forall₂_zip_left {α β : Type} {l : List α} {l' : List β} (h : l.length = l'.length) :
    (l.zip l').map Prod.fst = l := by
  rw [List.map_fst_zip]; omega

theorem forall₂_zip_right {α β : Type} {l : List α} {l' : List β} (h : l.length = l'.length) :
    (l.zip l').map Prod.snd = l' := by
  rw [List.map_snd_zip]; omega

theorem idxOf?_getD {pc : List Nat} (hn : pc.Nodup) {i : Nat} (hi : i < pc.length) :
    pc.idxOf? (pc.getD i 0) = some i := by
  rw [List.idxOf?_eq_some_iff]
  refine ⟨hi, (List.getD_eq_getElem _ _ hi).symm, fun j hj => ?_⟩
  rw [List.getD_eq_getElem _ _ hi, List.Nodup.getElem_inj_iff hn]
  omega

theorem nonPivot_not_mem {nc : Nat} {pc : List Nat} {j : Nat} (hj : j < (nonPivots nc pc).length) :
    (nonPivots nc pc).getD j 0 ∉ pc ∧ (nonPivots nc pc).getD j 0 < nc := by
  have : (nonPivots nc pc).getD j 0 ∈ nonPivots nc pc := by
    rw [List.getD_eq_getElem _ _ hj]; exact List.getElem_mem hj
  generalize (nonPivots nc pc).getD j 0 = c at this ⊢
  rw [nonPivots, List.mem_filter, List.mem_range] at this
  exact ⟨by simpa using this.2, this.1⟩

theorem nonPivots_nodup (nc : Nat) (pc : List Nat) : (nonPivots nc pc).Nodup :=
  List.nodup_range.filter _

/-- the sum over the non-pivotal columns -/
theorem sum_nonPivots {l : List Nat} (hn : l.Nodup) {j : Nat} (hj : j < l.length)
    (g : Nat → F) : (l.map fun k => g k * (if k = l.getD j 0 then (1 : F) else 0)).sum = g (l.getD j 0) := by
  have hmem : l.getD j 0 ∈ l := by
    rw [List.getD_eq_getElem _ _ hj]; exact List.getElem_mem hj
  generalize l.getD j 0 = c at hmem
  clear hj
  induction l with
  | nil => simp at hmem
  | cons x l ih =>
    rw [List.map_cons, List.sum_cons]
    rw [List.nodup_cons] at hn
    rcases List.mem_cons.1 hmem with h | h
    · subst h
      rw [if_pos rfl, mul_one]
      have : (l.map fun k => g k * (if k = c then (1 : F) else 0)) = l.map fun _ => 0 := by
        apply List.map_congr_left
        intro k hk
        rw [if_neg (fun e : k = c => hn.1 (e ▸ hk)), mul_zero]
      rw [this]; simp
    · have hne : x ≠ c := fun e => hn.1 (e ▸ h)
      rw [if_neg hne, mul_zero, zero_add]
      exact ih hn.2 h

/-- a common form of the kernel functions -/
theorem kernel_of {nc : Nat} {init rows : List Row} {pc : List Nat}
    (he : IsEchelon F nc rows pc) (hspan : rowSpan F nc rows = rowSpan F nc init)
    {d : F} (hd : d ≠ 0) (dz : ℤ) (hdz : (dz : F) = d)
    (f : Nat → Nat → ℤ)
    (hf : ∀ i < pc.length, ∀ j < (nonPivots nc pc).length,
      ent F (rows.getD i []) ((nonPivots nc pc).getD j 0) * d + ((List.range pc.length).map fun s =>
        ent F (rows.getD i []) (pc.getD s 0) * ((f s j : ℤ) : F)).sum = 0) :
    IsKernelBasis F nc init d (nonPivots nc pc)
      (M.ofFn nc (nonPivots nc pc).length fun i j =>
        match pc.idxOf? i with
        | some r => f r j
        | none => if i = (nonPivots nc pc).getD j 0 then dz else 0) := by
  have hnd : pc.Nodup := he.sorted.imp ne_of_lt
  refine isKernelBasis_of hd he hspan ?_ ?_
  · intro j hj row hrow
    obtain ⟨i, hi, rfl⟩ := List.mem_iff_getElem.1 hrow
    have hi' : i < pc.length := he.piv.length_eq ▸ hi
    have h1 : ∀ k : Fin nc, ent F rows[i] k * (((M.ofFn nc (nonPivots nc pc).length fun i j =>
        match pc.idxOf? i with
        | some r => f r j
        | none => if i = (nonPivots nc pc).getD j 0 then dz else 0).get k j : ℤ) : F) =
        (fun k : Nat => ent F rows[i] k * (((match pc.idxOf? k with
        | some r => f r j
        | none => if k = (nonPivots nc pc).getD j 0 then dz else 0 : ℤ)) : F)) k := by
      intro k
      rw [M.get_ofFn k.2 hj]
    rw [Finset.sum_congr rfl fun k _ => h1 k, sum_split he.sorted he.lt
      (fun k : Nat => ent F rows[i] k * (((match pc.idxOf? k with
        | some r => f r j
        | none => if k = (nonPivots nc pc).getD j 0 then dz else 0 : ℤ)) : F))]
    have h2 : ((nonPivots nc pc).map fun k : Nat => ent F rows[i] k * (((match pc.idxOf? k with
        | some r => f r j
        | none => if k = (nonPivots nc pc).getD j 0 then dz else 0 : ℤ)) : F)) =
        (nonPivots nc pc).map fun k => (ent F rows[i] k * d) *
          (if k = (nonPivots nc pc).getD j 0 then (1 : F) else 0) := by
      apply List.map_congr_left
      intro k hk
      have hkp : k ∉ pc := by
        rw [nonPivots, List.mem_filter] at hk
        simpa using hk.2
      rw [List.idxOf?_eq_none_iff.2 hkp]
      split_ifs
      · rw [hdz, mul_one]
      · simp
    have h3 : (pc.map fun k : Nat => ent F rows[i] k * (((match pc.idxOf? k with
        | some r => f r j
        | none => if k = (nonPivots nc pc).getD j 0 then dz else 0 : ℤ)) : F)) =
        (List.range pc.length).map fun s => ent F rows[i] (pc.getD s 0) * ((f s j : ℤ) : F) := by
      apply List.ext_getElem
      · simp
      · intro s hs _
        have hs' : s < pc.length := by simpa using hs
        simp only [List.getElem_map, List.getElem_range]
        have e : pc[s] = pc.getD s 0 := (List.getD_eq_getElem _ _ hs').symm
        rw [e, idxOf?_getD hnd hs']
    rw [h2, h3, sum_nonPivots (nonPivots_nodup nc pc) hj fun k => ent F rows[i] k * d]
    have := hf i hi' j hj
    rw [List.getD_eq_getElem _ _ hi] at this
    rw [add_comm]; exact this
  · intro i hi j hj
    have hni := nonPivot_not_mem hi
    rw [M.get_ofFn hni.2 hj, List.idxOf?_eq_none_iff.2 hni.1]
    have : ((nonPivots nc pc).getD i 0 = (nonPivots nc pc).getD j 0) ↔ i = j := by
      rw [List.getD_eq_getElem _ _ hi, List.getD_eq_getElem _ _ hj,
        List.Nodup.getElem_inj_iff (nonPivots_nodup nc pc)]
    simp only [this]
    split_ifs
    · exact hdz
    · simp

end Eclib.Mat
