import Verif.Elim.Kernel
import Verif.Marith.Props

/-!
# Structured elimination: instances, examples and `ordlist::put`
-/

namespace Eclib.Elim

set_option linter.unusedSectionVars false

open Svec (T smod)

variable {q : ℕ} [hq : Fact q.Prime]

/-- the contract of the dense step is met by `echmodp` of mat.cc (C17) -/
theorem rrefOk_echmodp (X : Marith.XGcd) (t : T) : RrefOk q (Mat.echmodp X t q) := by
  intro m hm
  obtain ⟨h1, h2, _, _, _, h6⟩ := Mat.Props.C17_echmodp (p := q) X t m hm
  refine ⟨h1, h2, fun r hr => ⟨(h6 r hr).1, fun x hx => ?_⟩⟩
  have := (h6 r hr).2 x hx
  have h0 : (0 : ℤ) < q := by exact_mod_cast hq.out.pos
  rw [abs_lt]
  constructor <;> omega

/-- the contract of the test of the density is met by the test `rows*columns = 0` -/
theorem sparseOk_empty : SparseOk fun s => (activeRows s).isEmpty || (activeCols s).isEmpty := by
  rintro s (h | h) <;> simp [h]

/-- **C71.** with the dense step done by `echmodp` as soon as there is something left -/
theorem C71_kernel_dense (X : Marith.XGcd) {t : T} {nco : ℕ} {rows : List Row} (hok : ∀ l ∈ rows, RowOk t q nco l) :
    ∃ K, kernel X t q (fun s => (activeRows s).isEmpty || (activeCols s).isEmpty) (Mat.echmodp X t q)
        ((rows.length + 1) * (rows.length + nco + 1)) nco rows = some K ∧ IsKernel q nco rows K ∧
      K.pc.length = (matOf q nco rows).rank := by
  obtain ⟨K, h1, h2, _, h4⟩ := C71_kernel X hok sparseOk_empty (rrefOk_echmodp X t) le_rfl
  exact ⟨K, h1, h2, h4⟩

/-- the rows of the examples -/
def exRows : List Row := [[(1, 1), (2, 2), (4, 3)], [(2, 1), (3, 1), (5, -1)], [(1, 1), (2, 3), (3, 1), (4, 3), (5, -1)], [(3, 2)]]

instance fact7 : Fact (Nat.Prime 7) := ⟨by decide⟩

/-- the hypotheses of C71 are met -/
theorem exRows_ok : ∀ l ∈ exRows, RowOk .int 7 5 l := by
  intro l hl
  have h : ∀ l ∈ exRows, (keys l).Pairwise (· < ·) ∧ (∀ c ∈ keys l, 1 ≤ c ∧ c ≤ 5) ∧ (∀ e ∈ l, ((e.2 : ℤ) : ZMod 7) ≠ 0) ∧
      ∀ e ∈ l, |e.2| < ((7 : ℕ) : ℤ) := by decide
  obtain ⟨h1, h2, h3, h4⟩ := h l hl
  exact ⟨h1, h2, h3, fun e he _ => h4 e he⟩

example : ∃ K, kernel Marith.Props.xgcd0 .int 7 (fun _ => true) (Mat.echmodp Marith.Props.xgcd0 .int 7) 50 5 exRows = some K ∧
    IsKernel 7 5 exRows K := by
  obtain ⟨K, h1, h2, _⟩ := C71_kernel (q := 7) Marith.Props.xgcd0 exRows_ok (sparse := fun _ => true) (fun _ _ => rfl)
    (rrefOk_echmodp _ .int) (fuel := 50) (by decide)
  exact ⟨K, h1, h2⟩

example : (kernel Marith.Props.xgcd0 .int 7 (fun _ => true) (Mat.echmodp Marith.Props.xgcd0 .int 7) 50 5 exRows).map
    (fun K => (K.bas, K.pc, K.npc)) =
    some ([[(1, 1)], [(1, 3), (2, 2)], [], [(2, 1)], [(1, 3), (2, 2)]], [2, 3, 5], [1, 4]) := by decide +kernel

/-! ### the ordered lists -/

/-- **C72 (partial).**  The class `ordlist`, for lists with elements `s` in increasing order.  `remove(X)`,
`remove(list)` and `put(list)` remove and insert exactly the elements given.  `put(list)` reads the cell
after the last element, so this cell must have been written, with a value not in the list inserted; this
is so after `remove`.  `put(X)` is right when `X` is greater than all elements. -/
theorem C72_ordlist_partial {l : OL} {s : List ℕ} (hl : Holds l s) :
    (∀ X ∈ s, ∃ l' s', l.remove X = some l' ∧ Holds l' s' ∧ ∀ x, x ∈ s' ↔ x ∈ s ∧ x ≠ X) ∧
    (∀ S, Stale l s S → (∀ x ∈ s, S x) → ∀ L : List ℕ, L.Pairwise (· < ·) → (∀ x ∈ L, x ∈ s) →
      ∃ l' s', l.removeList L = some l' ∧ Holds l' s' ∧ ∀ x, x ∈ s' ↔ x ∈ s ∧ x ∉ L) ∧
    (∀ S ls, 0 < ls → Stale l s S → (∀ x ∈ s, S x) → ∀ L : List ℕ, L.Pairwise (· < ·) → (∀ x ∈ L, ¬ S x) →
      ∃ l' s', l.putList ls L = some l' ∧ Holds l' s' ∧ ∀ x, x ∈ s' ↔ x ∈ s ∨ x ∈ L) ∧
    ∀ X ls, 0 < ls → (∀ x ∈ s, x < X) → ∃ l', l.put ls X = some l' ∧ Holds l' (s ++ [X]) := by
  refine ⟨fun X hX => ?_, fun S h1 h2 L h3 h4 => ?_, fun S ls h0 h1 h2 L h3 h4 => ?_, fun X ls h0 hX => ?_⟩
  · obtain ⟨l', s', h1, h2, _, _, _, h3⟩ := OL.remove_spec hl hX
    exact ⟨l', s', h1, h2, h3⟩
  · obtain ⟨l', s', k1, k2, _, _, _, k3⟩ := OL.removeList_spec hl h1 h2 h3 h4
    exact ⟨l', s', k1, k2, k3⟩
  · obtain ⟨l', s', k1, k2, _, k3⟩ := OL.putList_spec h0 hl h1 h2 h3 h4
    exact ⟨l', s', k1, k2, k3⟩
  · obtain ⟨l', k1, k2, _⟩ := OL.put_spec hl (Or.inl h0) hX
    exact ⟨l', k1, k2⟩

/-- `put(X)` (smat_elim.cc:132-159) calls `memmove` from the last element on instead of from the place
found: putting 2 in the list 1, 3, 5 loses 3 if the array has room -/
theorem C72_put_not_insert : OL.put 10 ⟨[some 1, some 3, some 5, none, none], 3, 0⟩ 2 =
    some ⟨[some 1, some 2, some 5, some 5, none], 4, 0⟩ := by decide

/-- with little room left `put(X)` writes past the end of the array -/
theorem C72_put_overflow : OL.put 10 ⟨[some 1, some 3, some 5, none], 3, 0⟩ 2 = none := by decide

/-- `put(list)` (smat_elim.cc:187) reads past the end of a full array -/
theorem C72_putList_overflow : OL.putList 10 ⟨[some 1, some 3], 2, 0⟩ [5] = none := by decide

example : Holds ⟨[some 1, some 3, some 5, none], 3, 0⟩ [1, 3, 5] := ⟨by decide, rfl, [none], rfl⟩

example : ∃ l, OL.remove ⟨[some 1, some 3, some 5], 3, 0⟩ 3 = some l ∧ Holds l [1, 5] ∧ Stale l [1, 5] (· ∈ [1, 3, 5]) :=
  ⟨⟨[some 1, some 5, some 5], 2, 0⟩, by decide, ⟨by decide, rfl, [some 5], rfl⟩, 5, [], by decide, rfl⟩

example : OL.putList 10 ⟨[some 1, some 5, some 5], 2, 0⟩ [2, 7] = some ⟨[some 1, some 2, some 5, some 7, none], 4, 0⟩ := by decide

end Eclib.Elim
