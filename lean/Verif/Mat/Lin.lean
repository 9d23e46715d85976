import Mathlib.LinearAlgebra.Span.Basic
import Mathlib.LinearAlgebra.LinearIndependent.Basic
import Mathlib.Data.List.Sort
import Mathlib.Data.List.Perm.Basic
import Mathlib.Data.List.Nodup
import Mathlib.Tactic.Ring
import Mathlib.Tactic.Linarith
import Verif.Mat.Model

/-!
# Linear algebra over a field for lists of integer rows

The specification: the row space over a field `F` of a list of integer rows, and echelon form.
-/

namespace Eclib.Mat

/-- the entry `k` of a row in `F` -/
def ent (F : Type) [Field F] (row : Row) (k : Nat) : F := ((row.getD k 0 : ℤ) : F)

/-- a row as a vector over `F` -/
def vecF (F : Type) [Field F] (nc : Nat) (row : Row) : Fin nc → F := fun j => ent F row j

/-- the row space over `F` -/
def rowSpan (F : Type) [Field F] (nc : Nat) (rows : List Row) : Submodule F (Fin nc → F) :=
  Submodule.span F {v | ∃ r ∈ rows, v = vecF F nc r}

/-- The rows are in echelon form with the given pivotal columns: strictly increasing pivots, zeros
before the pivot, a non-zero pivot -/
structure IsEchelon (F : Type) [Field F] (nc : Nat) (rows : List Row) (pc : List Nat) : Prop where
  sorted : pc.Pairwise (· < ·)
  lt : ∀ c ∈ pc, c < nc
  piv : List.Forall₂ (fun row c => ent F row c ≠ 0 ∧ ∀ k < c, ent F row k = 0) rows pc

/-- the columns which are not pivotal, in order -/
def nonPivots (nc : Nat) (pc : List Nat) : List Nat := (List.range nc).filter (· ∉ pc)

variable {F : Type} [Field F]

/-- `v` is a null vector of the rows -/
def IsNull (F : Type) [Field F] (nc : Nat) (rows : List Row) (v : Fin nc → F) : Prop :=
  ∀ r ∈ rows, ∑ j : Fin nc, ent F r j * v j = 0

/-- the null vectors depend on the row space only -/
theorem isNull_iff {nc : Nat} {rows : List Row} {v : Fin nc → F} :
    IsNull F nc rows v ↔ ∀ w ∈ rowSpan F nc rows, ∑ j : Fin nc, w j * v j = 0 := by
  constructor
  · intro h w hw
    induction hw using Submodule.span_induction with
    | mem x hx => obtain ⟨r, hr, rfl⟩ := hx; exact h r hr
    | zero => simp
    | add x y _ _ hx hy =>
      simp only [Pi.add_apply, add_mul, Finset.sum_add_distrib, hx, hy, add_zero]
    | smul a x _ hx =>
      simp only [Pi.smul_apply, smul_eq_mul, mul_assoc, ← Finset.mul_sum, hx, mul_zero]
  · intro h r hr
    exact h _ (Submodule.subset_span ⟨r, hr, rfl⟩)

theorem isNull_congr {nc : Nat} {rows rows' : List Row} (h : rowSpan F nc rows = rowSpan F nc rows')
    (v : Fin nc → F) : IsNull F nc rows v ↔ IsNull F nc rows' v := by
  rw [isNull_iff, isNull_iff, h]

theorem mem_rowSpan {nc : Nat} {rows : List Row} {r : Row} (h : r ∈ rows) :
    vecF F nc r ∈ rowSpan F nc rows := Submodule.subset_span ⟨r, h, rfl⟩

theorem rowSpan_le {nc : Nat} {rows : List Row} {W : Submodule F (Fin nc → F)} :
    rowSpan F nc rows ≤ W ↔ ∀ r ∈ rows, vecF F nc r ∈ W := by
  rw [rowSpan, Submodule.span_le]
  constructor
  · intro h r hr; exact h ⟨r, hr, rfl⟩
  · rintro h _ ⟨r, hr, rfl⟩; exact h r hr

theorem rowSpan_perm {nc : Nat} {l l' : List Row} (h : l.Perm l') :
    rowSpan F nc l = rowSpan F nc l' := by
  unfold rowSpan
  congr 1
  ext v
  simp only [Set.mem_ofPred_eq, h.mem_iff]

theorem rowSpan_mono {nc : Nat} {l l' : List Row} (h : ∀ r ∈ l, r ∈ l') :
    rowSpan F nc l ≤ rowSpan F nc l' := rowSpan_le.2 fun r hr => mem_rowSpan (h r hr)

/-- rows agreeing in the first `nc` columns -/
theorem vecF_eq {nc : Nat} {r r' : Row} (h : ∀ k < nc, ent F r k = ent F r' k) :
    vecF F nc r = vecF F nc r' := funext fun j => h j j.2

theorem vecF_comb {nc : Nat} {r x y : Row} {a b : F}
    (h : ∀ k < nc, ent F r k = a * ent F x k + b * ent F y k) :
    vecF F nc r = a • vecF F nc x + b • vecF F nc y := funext fun j => h j j.2

theorem vecF_smul {nc : Nat} {r x : Row} {a : F} (h : ∀ k < nc, ent F r k = a * ent F x k) :
    vecF F nc r = a • vecF F nc x := funext fun j => h j j.2

/-! ### permutations by a swap -/

theorem swap_aux (h : Row) : ∀ (t : List Row) (k : Nat), k < t.length →
    (h :: t).Perm (t.getD k [] :: t.set k h)
  | [], k, hk => absurd hk (by simp)
  | x :: t, 0, _ => by simpa using List.Perm.swap x h t
  | x :: t, k + 1, hk => by
    have ih := swap_aux h t k (by simpa using hk)
    simp only [List.getD_cons_succ, List.set_cons_succ]
    calc (h :: x :: t).Perm (x :: h :: t) := List.Perm.swap x h t
      _ |>.Perm (x :: t.getD k [] :: t.set k h) := ih.cons x
      _ |>.Perm (t.getD k [] :: x :: t.set k h) := List.Perm.swap _ _ _

theorem swapRows_perm {rest : List Row} {i : Nat} (hi : i < rest.length) :
    rest.Perm ((swapRows rest i).1 :: (swapRows rest i).2) := by
  unfold swapRows
  cases rest with
  | nil => simp at hi
  | cons h t =>
    cases i with
    | zero => simp
    | succ k =>
      simp only [Nat.succ_ne_zero, if_false, List.tail_cons, Nat.add_sub_cancel, List.headD_cons,
        List.getD_cons_succ]
      exact swap_aux h t k (by simpa using hi)

/-! ### the generic forward elimination -/

/-- The relation between a row and its replacement when `piv` is used to clear column `c`. -/
def Cleared (F : Type) [Field F] (nc : Nat) (piv : Row) (c : Nat) (row row' : Row) : Prop :=
  ∃ a b : F, a ≠ 0 ∧ (∀ k < nc, ent F row' k = a * ent F row k + b * ent F piv k) ∧ ent F row' c = 0

/-- invariant of the column loop: `init` are the original rows -/
structure FInv (F : Type) [Field F] {σ : Type} (nc : Nat) (init : List Row) (c : Nat) (S : FS σ) :
    Prop where
  sorted : S.pc.Pairwise (· < ·)
  lt : ∀ x ∈ S.pc, x < c
  npc : S.npc = nonPivots c S.pc
  piv : List.Forall₂ (fun row c => ent F row c ≠ 0 ∧ ∀ k < c, ent F row k = 0) S.top S.pc
  zero : ∀ row ∈ S.rest, ∀ k < c, ent F row k = 0
  span : rowSpan F nc (S.top ++ S.rest) = rowSpan F nc init

theorem nonPivots_succ_none {c : Nat} {pc : List Nat} (h : ∀ x ∈ pc, x < c) :
    nonPivots (c + 1) pc = nonPivots c pc ++ [c] := by
  have : c ∉ pc := fun hc => lt_irrefl _ (h c hc)
  simp [nonPivots, List.range_succ, List.filter_append, this]

theorem nonPivots_succ_some {c : Nat} {pc : List Nat} :
    nonPivots (c + 1) (pc ++ [c]) = nonPivots c pc := by
  simp only [nonPivots, List.range_succ, List.filter_append]
  have h2 : List.filter (fun x => decide (x ∉ pc ++ [c])) [c] = [] := by simp
  rw [h2, List.append_nil]
  apply List.filter_congr
  intro x hx
  have : x ≠ c := by
    rintro rfl
    exact absurd (List.mem_range.1 hx) (lt_irrefl _)
  simp [this]

theorem nonPivots_all {c k : Nat} {pc : List Nat} (h : ∀ x ∈ pc, x < c) :
    nonPivots (c + k) pc = nonPivots c pc ++ List.range' c k := by
  induction k with
  | zero => simp
  | succ k ih =>
    rw [← Nat.add_assoc, nonPivots_succ_none (fun x hx => lt_of_lt_of_le (h x hx) (Nat.le_add_right c k)), ih,
      List.append_assoc]
    congr 1
    rw [List.range'_concat]
    simp

theorem forall₂_mem_right {α β : Type} {R : α → β → Prop} {l : List α} {l' : List β}
    (h : List.Forall₂ R l l') : ∀ y ∈ l', ∃ x ∈ l, R x y := by
  induction h with
  | nil => simp
  | cons hxy _ ih =>
    intro y hy
    rcases List.mem_cons.1 hy with rfl | hy
    · exact ⟨_, List.mem_cons_self, hxy⟩
    · obtain ⟨x, hx, hr⟩ := ih y hy
      exact ⟨x, List.mem_cons_of_mem _ hx, hr⟩

theorem forall₂_mem_left {α β : Type} {R : α → β → Prop} {l : List α} {l' : List β}
    (h : List.Forall₂ R l l') : ∀ x ∈ l, ∃ y ∈ l', R x y := by
  induction h with
  | nil => simp
  | cons hxy _ ih =>
    intro y hy
    rcases List.mem_cons.1 hy with rfl | hy
    · exact ⟨_, List.mem_cons_self, hxy⟩
    · obtain ⟨x, hx, hr⟩ := ih y hy
      exact ⟨x, List.mem_cons_of_mem _ hx, hr⟩

/-- scaling the pivot row and clearing the other rows does not change the row space -/
theorem span_step {nc : Nat} {top : List Row} {piv piv' : Row} {others others' : List Row} {c : Nat}
    (hp : ∃ a : F, a ≠ 0 ∧ ∀ k < nc, ent F piv' k = a * ent F piv k)
    (ho : List.Forall₂ (Cleared F nc piv c) others others') :
    rowSpan F nc (top ++ piv' :: others') = rowSpan F nc (top ++ piv :: others) := by
  obtain ⟨a, ha, hp⟩ := hp
  have hp := vecF_smul hp
  apply le_antisymm
  · rw [rowSpan_le]
    intro r hr
    have mp : vecF F nc piv ∈ rowSpan F nc (top ++ piv :: others) := mem_rowSpan (by simp)
    rcases List.mem_append.1 hr with hr | hr
    · exact mem_rowSpan (by simp [hr])
    rcases List.mem_cons.1 hr with rfl | hr
    · rw [hp]; exact Submodule.smul_mem _ _ mp
    · obtain ⟨x, hx, u, v, -, hu, -⟩ := forall₂_mem_right ho r hr
      rw [vecF_comb hu]
      exact Submodule.add_mem _ (Submodule.smul_mem _ _ (mem_rowSpan (by simp [hx])))
        (Submodule.smul_mem _ _ mp)
  · rw [rowSpan_le]
    intro r hr
    have mp : vecF F nc piv ∈ rowSpan F nc (top ++ piv' :: others') := by
      have : vecF F nc piv' ∈ rowSpan F nc (top ++ piv' :: others') := mem_rowSpan (by simp)
      have := Submodule.smul_mem _ a⁻¹ this
      rwa [hp, smul_smul, inv_mul_cancel₀ ha, one_smul] at this
    rcases List.mem_append.1 hr with hr | hr
    · exact mem_rowSpan (by simp [hr])
    rcases List.mem_cons.1 hr with rfl | hr
    · exact mp
    · obtain ⟨x, hx, u, v, hu0, hu, -⟩ := forall₂_mem_left ho r hr
      have hx' : vecF F nc x ∈ rowSpan F nc (top ++ piv' :: others') := mem_rowSpan (by simp [hx])
      rw [vecF_comb hu] at hx'
      have h2 := Submodule.sub_mem _ hx' (Submodule.smul_mem _ v mp)
      rw [add_sub_cancel_right] at h2
      have h3 := Submodule.smul_mem _ u⁻¹ h2
      rwa [smul_smul, inv_mul_cancel₀ hu0, one_smul] at h3

/-- the state at the end of the column loop -/
structure FEnd (F : Type) [Field F] {σ : Type} (nc : Nat) (init : List Row) (S : FS σ) : Prop where
  ech : IsEchelon F nc S.top S.pc
  npc : S.npc = nonPivots nc S.pc
  span : rowSpan F nc S.top = rowSpan F nc init

/-- Correctness of the generic column loop, given an additional invariant `J`. -/
theorem fwd_spec {σ : Type} {nc : Nat} {init : List Row} (find : Nat → List Row → Option Nat)
    (act : Nat → Row → List Row → σ → Row × List Row × σ) (J : Nat → FS σ → Prop)
    (hN : ∀ c S, J c S → FInv F nc init c S → S.rest ≠ [] → c < nc → find c S.rest = none →
      (∀ row ∈ S.rest, ent F row c = 0) ∧ J (c + 1) { S with npc := S.npc ++ [c] })
    (hS : ∀ c S i, J c S → FInv F nc init c S → c < nc → find c S.rest = some i →
      i < S.rest.length ∧
      (let sw := swapRows S.rest i
       let r := act c sw.1 sw.2 S.s
       ent F sw.1 c ≠ 0 ∧ (∃ a : F, a ≠ 0 ∧ ∀ k < nc, ent F r.1 k = a * ent F sw.1 k) ∧
       List.Forall₂ (Cleared F nc sw.1 c) sw.2 r.2.1 ∧
       J (c + 1) ⟨S.top ++ [r.1], r.2.1, S.pc ++ [c], S.npc, r.2.2⟩)) :
    ∀ k c S, c + k = nc → J c S → FInv F nc init c S →
      FEnd F nc init (fwd find act k c S) ∧
      (∃ c', c' ≤ nc ∧ ∃ npc, J c' { fwd find act k c S with npc := npc }) := by
  intro k
  induction k with
  | zero =>
    intro c S hk hJ hI
    rw [Nat.add_zero] at hk
    subst hk
    refine ⟨⟨⟨hI.sorted, hI.lt, hI.piv⟩, hI.npc, ?_⟩, c, le_refl _, S.npc, hJ⟩
    rw [fwd, ← hI.span]
    apply le_antisymm (rowSpan_mono (by simp +contextual))
    rw [rowSpan_le]
    intro r hr
    rcases List.mem_append.1 hr with hr | hr
    · exact mem_rowSpan hr
    · have : vecF F c r = 0 := funext fun j => hI.zero r hr j j.2
      rw [this]; exact Submodule.zero_mem _
  | succ k ih =>
    intro c S hk hJ hI
    have hc : c < nc := by omega
    rw [fwd]
    by_cases hr : S.rest = []
    · rw [if_pos hr]
      refine ⟨⟨⟨hI.sorted, fun x hx => (hI.lt x hx).trans hc, hI.piv⟩, ?_, ?_⟩, c, hc.le, S.npc, hJ⟩
      · simp only
        rw [hI.npc, ← hk, nonPivots_all hI.lt]
      · have := hI.span
        rwa [hr, List.append_nil] at this
    · rw [if_neg hr]
      cases hf : find c S.rest with
      | none =>
        obtain ⟨h1, h2⟩ := hN c S hJ hI hr hc hf
        refine ih (c + 1) _ (by omega) h2 ⟨hI.sorted, fun x hx => (hI.lt x hx).trans (Nat.lt_succ_self c),
          ?_, hI.piv, ?_, hI.span⟩
        · simp only
          rw [nonPivots_succ_none hI.lt, hI.npc]
        · intro row hrow k hk
          rcases Nat.lt_succ_iff_lt_or_eq.1 hk with hk | rfl
          · exact hI.zero row hrow k hk
          · exact h1 row hrow
      | some i =>
        obtain ⟨hi, hne, hpa, hcl, hJ'⟩ := hS c S i hJ hI hc hf
        refine ih (c + 1) _ (by omega) hJ' ?_
        have hperm := swapRows_perm hi
        have hpz : ∀ k < c, ent F (swapRows S.rest i).1 k = 0 :=
          fun k hk => hI.zero _ (hperm.mem_iff.2 List.mem_cons_self) k hk
        have hoz : ∀ row ∈ (swapRows S.rest i).2, ∀ k < c, ent F row k = 0 :=
          fun row hrow => hI.zero row (hperm.mem_iff.2 (List.mem_cons_of_mem _ hrow))
        refine ⟨?_, ?_, ?_, ?_, ?_, ?_⟩
        · rw [List.pairwise_append]
          exact ⟨hI.sorted, List.pairwise_singleton _ _, fun x hx y hy => by
            rw [List.mem_singleton.1 hy]; exact hI.lt x hx⟩
        · intro x hx
          rcases List.mem_append.1 hx with hx | hx
          · exact (hI.lt x hx).trans (Nat.lt_succ_self c)
          · rw [List.mem_singleton.1 hx]; exact Nat.lt_succ_self c
        · simp only
          rw [nonPivots_succ_some, hI.npc]
        · apply List.rel_append hI.piv
          refine List.Forall₂.cons ⟨?_, ?_⟩ List.Forall₂.nil
          · obtain ⟨a, ha, h⟩ := hpa
            rw [h c hc]; exact mul_ne_zero ha hne
          · obtain ⟨a, ha, h⟩ := hpa
            intro k hk
            rw [h k (hk.trans hc), hpz k hk, mul_zero]
        · intro row hrow k hk
          obtain ⟨x, hx, a, b, ha, hab, h0⟩ := forall₂_mem_right hcl row hrow
          rcases Nat.lt_succ_iff_lt_or_eq.1 hk with hk | rfl
          · rw [hab k (hk.trans hc), hoz x hx k hk, hpz k hk, mul_zero, mul_zero, add_zero]
          · exact h0
        · simp only
          rw [List.append_assoc, List.singleton_append, span_step hpa hcl, ← hI.span]
          exact rowSpan_perm (List.Perm.append_left _ hperm.symm)

/-- the invariant holds at the start -/
theorem finv_init {σ : Type} {nc : Nat} (rows : List Row) (s : σ) :
    FInv F nc rows 0 ⟨[], rows, [], [], s⟩ :=
  ⟨List.Pairwise.nil, by simp, by simp [nonPivots], List.Forall₂.nil, by simp, by simp⟩

/-! ### back substitution -/

/-- `elim c piv row` clears column `c` of `row` with the pivot row `piv`, changing only the columns
from `c` on -/
structure Clears (F : Type) [Field F] (nc : Nat) (Good : Row → Prop) (GP : Nat → Row → Prop)
    (elim : Nat → Row → Row → Row) : Prop where
  spec : ∀ c piv row, c < nc → Good piv → GP c piv → Good row → ent F piv c ≠ 0 → (∀ k < c, ent F piv k = 0) →
    Good (elim c piv row) ∧ Cleared F nc piv c row (elim c piv row)

theorem backSub_fold {nc : Nat} {Good : Row → Prop} {GP : Nat → Row → Prop}
    {elim : Nat → Row → Row → Row}
    (he : Clears F nc Good GP elim) :
    ∀ (l : List (Row × Nat)) (row : Row), Good row →
      (l.map Prod.snd).Pairwise (· < ·) → (∀ rc ∈ l, rc.2 < nc ∧ Good rc.1 ∧ GP rc.2 rc.1 ∧ ent F rc.1 rc.2 ≠ 0 ∧
        ∀ k < rc.2, ent F rc.1 k = 0) →
      let row' := l.foldl (fun r1 rc => elim rc.2 rc.1 r1) row
      Good row' ∧ (∃ a : F, a ≠ 0 ∧
        vecF F nc row' - a • vecF F nc row ∈ rowSpan F nc (l.map Prod.fst) ∧
        ∀ k < nc, (∀ rc ∈ l, k < rc.2) → ent F row' k = a * ent F row k) ∧
      ∀ rc ∈ l, ent F row' rc.2 = 0
  | [], row, hg, _, _ => by
    refine ⟨hg, ⟨1, one_ne_zero, ?_, ?_⟩, by simp⟩
    · simp
    · intro k _ _; simp
  | (r, c) :: l, row, hg, hs, hl => by
    obtain ⟨hc, hgr, hgp, hne, hz⟩ := hl (r, c) List.mem_cons_self
    obtain ⟨g1, a, b, ha, hab, h0⟩ := he.spec c r row hc hgr hgp hg hne hz
    simp only [List.map_cons, List.pairwise_cons] at hs
    obtain ⟨g2, ⟨a', ha', hm, hk⟩, hz'⟩ := backSub_fold he l (elim c r row) g1 hs.2
      (fun rc h => hl rc (List.mem_cons_of_mem _ h))
    refine ⟨g2, ⟨a' * a, mul_ne_zero ha' ha, ?_, ?_⟩, ?_⟩
    · simp only [List.foldl_cons, List.map_cons]
      have e := vecF_comb hab
      have h1 := rowSpan_mono (F := F) (nc := nc) (fun x (hx : x ∈ l.map Prod.fst) =>
        List.mem_cons_of_mem r hx) hm
      have h2 : (a' * b) • vecF F nc r ∈ rowSpan F nc (r :: l.map Prod.fst) :=
        Submodule.smul_mem _ _ (mem_rowSpan List.mem_cons_self)
      have := Submodule.add_mem _ h1 h2
      rw [e, smul_add, smul_smul, smul_smul] at this
      convert this using 1
      abel
    · intro k hkn hkl
      have h1 := hk k hkn (fun rc h => hkl rc (List.mem_cons_of_mem _ h))
      simp only [List.foldl_cons]
      rw [h1, hab k hkn, hz k (hkl (r, c) List.mem_cons_self)]
      ring
    · intro rc hrc
      rcases List.mem_cons.1 hrc with rfl | hrc
      · simp only [List.foldl_cons]
        rw [hk c hc (fun rc h => hs.1 rc.2 (List.mem_map_of_mem h)), h0, mul_zero]
      · exact hz' rc hrc

/-- what back substitution achieves -/
theorem backSub_spec {nc : Nat} {Good : Row → Prop} {GP : Nat → Row → Prop}
    {elim : Nat → Row → Row → Row}
    (he : Clears F nc Good GP elim) :
    ∀ (l : List (Row × Nat)), (l.map Prod.snd).Pairwise (· < ·) →
      (∀ rc ∈ l, rc.2 < nc ∧ Good rc.1 ∧ GP rc.2 rc.1 ∧ ent F rc.1 rc.2 ≠ 0 ∧ ∀ k < rc.2, ent F rc.1 k = 0) →
      rowSpan F nc (backSub elim l) = rowSpan F nc (l.map Prod.fst) ∧
      List.Forall₂ (fun row rc => Good row ∧ ent F row rc.2 ≠ 0 ∧ (∀ k < rc.2, ent F row k = 0) ∧
        ∀ rc' ∈ l, rc'.2 ≠ rc.2 → ent F row rc'.2 = 0) (backSub elim l) l
  | [], _, _ => by simp [backSub]
  | (r, c) :: l, hs, hl => by
    have hl' := fun rc h => hl rc (List.mem_cons_of_mem _ h)
    obtain ⟨hc, hg, hgp, hne, hz⟩ := hl (r, c) List.mem_cons_self
    simp only [List.map_cons, List.pairwise_cons] at hs
    obtain ⟨ih1, ih2⟩ := backSub_spec he l hs.2 hl'
    obtain ⟨g, ⟨a, ha, hm, hk⟩, hz'⟩ := backSub_fold he l r hg hs.2 hl'
    have hlater : ∀ rc ∈ l, c < rc.2 := fun rc h => hs.1 rc.2 (List.mem_map_of_mem h)
    rw [backSub]
    constructor
    · simp only [List.map_cons]
      have hsub : rowSpan F nc (l.map Prod.fst) ≤ rowSpan F nc (backSub elim l) := ih1.symm.le
      apply le_antisymm
      · rw [rowSpan_le]
        intro x hx
        rcases List.mem_cons.1 hx with rfl | hx
        · have h1 := rowSpan_mono (F := F) (nc := nc) (fun y (hy : y ∈ l.map Prod.fst) =>
            List.mem_cons_of_mem r hy) hm
          have h2 : a • vecF F nc r ∈ rowSpan F nc (r :: l.map Prod.fst) :=
            Submodule.smul_mem _ _ (mem_rowSpan List.mem_cons_self)
          have := Submodule.add_mem _ h1 h2
          rwa [sub_add_cancel] at this
        · have := mem_rowSpan (F := F) (nc := nc) hx
          rw [ih1] at this
          exact rowSpan_mono (fun y hy => List.mem_cons_of_mem r hy) this
      · rw [rowSpan_le]
        intro x hx
        rcases List.mem_cons.1 hx with rfl | hx
        · have h0 := rowSpan_mono (F := F) (nc := nc) (fun y (hy : y ∈ backSub elim l) =>
            List.mem_cons_of_mem (l.foldl (fun r1 rc => elim rc.2 rc.1 r1) x) hy)
          have h1 := h0 (hsub hm)
          have h2 : vecF F nc (l.foldl (fun r1 rc => elim rc.2 rc.1 r1) x) ∈ rowSpan F nc
            (l.foldl (fun r1 rc => elim rc.2 rc.1 r1) x :: backSub elim l) :=
            mem_rowSpan List.mem_cons_self
          have h3 := Submodule.smul_mem _ a⁻¹ (Submodule.sub_mem _ h2 h1)
          rwa [sub_sub_cancel, smul_smul, inv_mul_cancel₀ ha, one_smul] at h3
        · exact rowSpan_mono (fun y hy => List.mem_cons_of_mem _ hy) (hsub (mem_rowSpan hx))
    · refine List.Forall₂.cons ⟨g, ?_, ?_, ?_⟩ ?_
      · rw [hk c hc hlater]; exact mul_ne_zero ha hne
      · intro k hkc
        rw [hk k (hkc.trans hc) (fun rc h => hkc.trans (hlater rc h)), hz k hkc, mul_zero]
      · intro rc' hrc' hne'
        rcases List.mem_cons.1 hrc' with rfl | hrc'
        · exact absurd rfl hne'
        · exact hz' rc' hrc'
      · refine List.forall₂_iff_zip.2 ⟨ih2.length_eq, ?_⟩
        · intro row rc hz2
          have hR := (List.forall₂_iff_zip.1 ih2).2 hz2
          have hrcl : rc ∈ l := (List.of_mem_zip hz2).2
          refine ⟨hR.1, hR.2.1, hR.2.2.1, ?_⟩
          intro rc' hrc' hne'
          rcases List.mem_cons.1 hrc' with rfl | hrc'
          · exact hR.2.2.1 c (hlater rc hrcl)
          · exact hR.2.2.2 rc' hrc' hne'

end Eclib.Mat
