import Verif.Smat.MulProps

/-!
# Property theorems for the sparse matrices (C47): transpose, comparison, counts
-/

namespace Eclib.Smat.Props

open Svec (T SV smod sxmod sxmodmul sdiv)
open Svec.Props (WF NoZero Red RedVec)

variable {z z' : Prop} {r c k : Nat}

/-! ### transpose -/

/-- the entries of a matrix in the order of storage: row number (from 0), column, value -/
def flat : Nat → List (List (Int × Int)) → List (Nat × (Int × Int))
  | _, [] => []
  | k, l :: L => l.map (fun e => (k, e)) ++ flat (k + 1) L

/-- the entries in column `j`, as a row of the transpose -/
def colOf (j : Int) (E : List (Nat × (Int × Int))) : List (Int × Int) :=
  (E.filter fun t => t.2.1 = j).map fun t => (((t.1 + 1 : Nat) : Int), t.2.2)

theorem colOf_append (j : Int) (E F : List (Nat × (Int × Int))) :
    colOf j (E ++ F) = colOf j E ++ colOf j F := by
  simp [colOf]

theorem fold_rows {σ : Type} (g : Nat → σ → Int × Int → Option σ) (rows : List Row)
    (L : List (List (Int × Int))) : ∀ (k : Nat) (s : σ), rows.map Row.read = L.map some →
    (rows.zipIdx k).foldlM (fun s (e : Row × Nat) => e.1.read.bind fun l => l.foldlM (g e.2) s) s =
      (flat k L).foldlM (fun s t => g t.1 s t.2) s := by
  induction rows generalizing L with
  | nil =>
    intro k s h
    cases L with
    | nil => rfl
    | cons l L => simp at h
  | cons rw rows ih =>
    intro k s h
    cases L with
    | nil => simp at h
    | cons l L =>
      simp only [List.map_cons, List.cons.injEq] at h
      rw [List.zipIdx_cons, List.foldlM_cons, flat, List.foldlM_append, h.1, Option.bind_some,
        List.foldlM_map]
      have : (fun s => List.foldlM (fun s (e : Row × Nat) => e.1.read.bind fun l => l.foldlM (g e.2) s) s
          (rows.zipIdx (k + 1))) = fun s => (flat (k + 1) L).foldlM (fun s t => g t.1 s t.2) s :=
        funext fun s => ih L (k + 1) s h.2
      rw [this]

theorem count_step (n : Nat) (w : List Nat) (hw : w.length = n) (e : Int × Int)
    (he : 1 ≤ e.1 ∧ e.1 ≤ (n : Int)) :
    ∃ w', (if 1 ≤ e.1 ∧ e.1 ≤ (w.length : Int) then some (w.modify (e.1 - 1).toNat (· + 1)) else none) =
      some w' ∧ w'.length = n ∧
      ∀ j, j < n → w'.getD j 0 = w.getD j 0 + if e.1 = (j : Int) + 1 then 1 else 0 := by
  rw [hw, if_pos he]
  refine ⟨_, rfl, by simp [hw], fun j hj => ?_⟩
  rw [List.getD_eq_getElem _ _ (by simpa [hw] using hj), List.getElem_modify,
    List.getD_eq_getElem _ _ (by omega)]
  by_cases h : (e.1 - 1).toNat = j
  · rw [if_pos h, if_pos (by omega)]
  · rw [if_neg h, if_neg (by omega), Nat.add_zero]

theorem count_spec (n : Nat) (E : List (Nat × (Int × Int))) : ∀ w : List Nat, w.length = n →
    (∀ t ∈ E, 1 ≤ t.2.1 ∧ t.2.1 ≤ (n : Int)) →
    ∃ w', E.foldlM (fun (w : List Nat) t =>
      if 1 ≤ t.2.1 ∧ t.2.1 ≤ (w.length : Int) then some (w.modify (t.2.1 - 1).toNat (· + 1)) else none) w =
        some w' ∧ w'.length = n ∧
      ∀ j, j < n → w'.getD j 0 = w.getD j 0 + (colOf (j + 1 : Int) E).length := by
  induction E with
  | nil => intro w hw _; exact ⟨w, rfl, hw, fun j _ => by simp [colOf]⟩
  | cons t E ih =>
    intro w hw h
    obtain ⟨w1, e1, l1, h1⟩ := count_step n w hw t.2 (h t List.mem_cons_self)
    obtain ⟨w2, e2, l2, h2⟩ := ih w1 l1 (fun t ht => h t (List.mem_cons_of_mem _ ht))
    refine ⟨w2, by rw [List.foldlM_cons, e1]; exact e2, l2, fun j hj => ?_⟩
    rw [h2 j hj, h1 j hj]
    have : colOf (j + 1 : Int) (t :: E) = colOf (j + 1 : Int) [t] ++ colOf (j + 1 : Int) E :=
      colOf_append _ [t] E
    rw [this, List.length_append, Nat.add_assoc]
    congr 1
    by_cases hc : t.2.1 = (j : Int) + 1
    · rw [if_pos hc]; simp [colOf, hc]
    · rw [if_neg hc]; simp [colOf, hc]

theorem readFrom_snoc (rw : Row) (l : List (Int × Int)) (x y : Int) : ∀ k,
    rw.readFrom k l.length = some l → rw.col.get (k + l.length + 1) = some x →
    rw.val.get (k + l.length) = some y → rw.readFrom k (l.length + 1) = some (l ++ [(x, y)]) := by
  induction l with
  | nil =>
    intro k _ h1 h2
    simp only [List.length_nil, Nat.add_zero] at h1 h2
    simp only [List.length_nil, Row.readFrom, h1, h2, List.nil_append]
  | cons e l ih =>
    intro k h h1 h2
    simp only [List.length_cons] at h h1 h2 ⊢
    rw [Row.readFrom] at h ⊢
    split at h
    · rename_i a b l' e1 e2 e3
      rw [Option.some.injEq, List.cons.injEq] at h
      obtain ⟨rfl, rfl⟩ := h
      have := ih (k + 1) e3 (by rw [show k + 1 + l'.length + 1 = k + (l'.length + 1) + 1 by omega]; exact h1)
        (by rw [show k + 1 + l'.length = k + (l'.length + 1) by omega]; exact h2)
      rw [e1, e2, this]
      rfl
    · cases h

theorem readFrom_congr' (rw rw' : Row) (n : Nat) : ∀ k,
    (∀ j, k + 1 ≤ j → j ≤ k + n → rw'.col.get j = rw.col.get j) →
    (∀ j, k ≤ j → j < k + n → rw'.val.get j = rw.val.get j) →
    rw'.readFrom k n = rw.readFrom k n := by
  induction n with
  | zero => intros; rfl
  | succ n ih =>
    intro k h1 h2
    simp only [Row.readFrom]
    rw [h1 (k + 1) le_rfl (by omega), h2 k le_rfl (by omega),
      ih (k + 1) (fun j hj hj' => h1 j (by omega) (by omega)) (fun j hj hj' => h2 j (by omega) (by omega))]

/-- the state of the third step of `transpose` after the entries `E`, with `w` the column weights -/
structure TInv (n : Nat) (w : Nat → Nat) (E : List (Nat × (Int × Int))) (s : List Row × List Nat) : Prop where
  len1 : s.1.length = n
  len2 : s.2.length = n
  aux : ∀ j, j < n → s.2.getD j 0 = (colOf (j + 1 : Int) E).length
  row : ∀ j (h : j < s.1.length), (s.1[j]).col.get 0 = some (w j : Int) ∧ (s.1[j]).Fits (w j) ∧
    (s.1[j]).readFrom 0 (colOf (j + 1 : Int) E).length = some (colOf (j + 1 : Int) E)

theorem trans_step {n : Nat} {w : Nat → Nat} {E : List (Nat × (Int × Int))} {s : List Row × List Nat}
    (h : TInv n w E s) (t : Nat × (Int × Int)) (ht : 1 ≤ t.2.1 ∧ t.2.1 ≤ (n : Int))
    (hw : ∀ j : Nat, j < n → (colOf (j + 1 : Int) (E ++ [t])).length ≤ w j) :
    ∃ s', transStep t.1 s t.2 = some s' ∧ TInv n w (E ++ [t]) s' := by
  have hc : (t.2.1 - 1).toNat < n := by omega
  generalize hcj : (t.2.1 - 1).toNat = j at hc
  have hj : t.2.1 = (j : Int) + 1 := by omega
  have h1 : j < s.1.length := by rw [h.len1]; exact hc
  have h2 : j < s.2.length := by rw [h.len2]; exact hc
  obtain ⟨r1, r2, r3⟩ := h.row j h1
  have ha := h.aux j hc
  rw [List.getD_eq_getElem _ _ h2] at ha
  have hcol : colOf (j + 1 : Int) (E ++ [t]) = colOf (j + 1 : Int) E ++ [(((t.1 + 1 : Nat) : Int), t.2.2)] := by
    rw [colOf_append]
    congr 1
    simp [colOf, hj]
  have hother : ∀ i : Nat, i ≠ j → colOf (i + 1 : Int) (E ++ [t]) = colOf (i + 1 : Int) E := by
    intro i hi
    rw [colOf_append]
    have : colOf (i + 1 : Int) [t] = [] := by
      have : t.2.1 ≠ (i : Int) + 1 := by omega
      simp [colOf, this]
    rw [this, List.append_nil]
  have hlt : (colOf (j + 1 : Int) E).length < w j := by
    have := hw j hc
    rw [hcol, List.length_append] at this
    simpa using this
  obtain ⟨col, hcp⟩ := put_some (b := (s.1[j]).col) (i := s.2[j] + 1) ((t.1 + 1 : Nat) : Int) (by
    have := r2.1; omega)
  obtain ⟨val, hvp⟩ := put_some (b := (s.1[j]).val) (i := s.2[j]) t.2.2 (by
    have := r2.2; omega)
  refine ⟨(s.1.set j ⟨col, val⟩, s.2.set j (s.2[j] + 1)), ?_, ?_⟩
  · unfold transStep
    rw [if_neg (by omega)]
    simp only [hcj]
    rw [List.getElem?_eq_getElem h1, List.getElem?_eq_getElem h2]
    simp only [hcp, hvp]
  · refine ⟨by simp [h.len1], by simp [h.len2], fun i hi => ?_, fun i hi => ?_⟩
    · simp only
      rw [List.getD_eq_getElem _ _ (by simp [h.len2, hi]), List.getElem_set]
      by_cases hij : j = i
      · subst hij
        rw [if_pos rfl, hcol, List.length_append, ha]; rfl
      · rw [if_neg hij, hother i (Ne.symm hij), ← h.aux i hi, List.getD_eq_getElem _ _ (by rw [h.len2]; exact hi)]
    · simp only [List.length_set] at hi
      simp only [List.getElem_set]
      by_cases hij : j = i
      · subst hij
        rw [if_pos rfl, hcol]
        refine ⟨?_, ?_, ?_⟩
        · simp only [get_put hcp]
          rw [if_neg (by omega)]; exact r1
        · simp only [Row.Fits, length_put hcp, length_put hvp]; exact r2
        · rw [List.length_append]
          refine readFrom_snoc _ _ _ _ 0 ?_ ?_ ?_
          · rw [readFrom_congr' s.1[j]]
            · exact r3
            · intro i _ hi2
              simp only [get_put hcp]
              rw [if_neg (by omega)]
            · intro i _ hi2
              simp only [get_put hvp]
              rw [if_neg (by omega)]
          · simp only [get_put hcp]
            rw [if_pos (by omega)]
          · simp only [get_put hvp]
            rw [if_pos (by omega)]
      · rw [if_neg hij, hother i (Ne.symm hij)]
        exact h.row i hi

theorem trans_fold {n : Nat} {w : Nat → Nat} (F : List (Nat × (Int × Int))) :
    ∀ (E : List (Nat × (Int × Int))) (s : List Row × List Nat), TInv n w E s →
    (∀ t ∈ F, 1 ≤ t.2.1 ∧ t.2.1 ≤ (n : Int)) →
    (∀ j : Nat, j < n → (colOf (j + 1 : Int) (E ++ F)).length ≤ w j) →
    ∃ s', F.foldlM (fun s t => transStep t.1 s t.2) s = some s' ∧ TInv n w (E ++ F) s' := by
  induction F with
  | nil => intro E s h _ _; exact ⟨s, rfl, by simpa using h⟩
  | cons t F ih =>
    intro E s h hr hw
    obtain ⟨s1, e1, h1⟩ := trans_step h t (hr t List.mem_cons_self) (fun j hj => by
      have := hw j hj
      rw [show E ++ t :: F = (E ++ [t]) ++ F by simp, colOf_append, List.length_append] at this
      omega)
    obtain ⟨s', e, h'⟩ := ih (E ++ [t]) s1 h1 (fun t ht => hr t (List.mem_cons_of_mem _ ht)) (fun j hj => by
      have := hw j hj
      simpa using this)
    refine ⟨s', by rw [List.foldlM_cons, e1]; exact e, by simpa using h'⟩

/-! the columns of the stored entries are the rows of the transpose -/

theorem filter_key (l : List (Int × Int)) (hl : Svec.Sorted l) (j : Int) :
    l.filter (fun e => e.1 = j) = match Svec.find l j with
      | none => []
      | some x => [(j, x)] := by
  induction l with
  | nil => rfl
  | cons e l ih =>
    obtain ⟨i, x⟩ := e
    have hl' := List.pairwise_cons.1 hl
    rw [Svec.find_cons]
    by_cases h : j = i
    · subst h
      rw [if_pos rfl, List.filter_cons_of_pos (by simp), ih hl'.2,
        Svec.find_none_of _ _ (fun f hf hc => by
          have := hl'.1 f hf
          simp only at this
          omega)]
    · rw [if_neg h, List.filter_cons_of_neg (by simpa using Ne.symm h), ih hl'.2]

theorem colOf_flat_cons (j : Int) (k : Nat) (l : List (Int × Int)) (L : List (List (Int × Int)))
    (hl : Svec.Sorted l) : colOf j (flat k (l :: L)) = (match Svec.find l j with
      | none => []
      | some x => [(((k + 1 : Nat) : Int), x)]) ++ colOf j (flat (k + 1) L) := by
  rw [flat, colOf_append]
  congr 1
  unfold colOf
  rw [List.filter_map, List.map_map]
  have : ((fun t : Nat × (Int × Int) => decide (t.2.1 = j)) ∘ fun e => (k, e)) =
      fun e : Int × Int => decide (e.1 = j) := rfl
  rw [this, filter_key l hl j]
  cases Svec.find l j <;> rfl

theorem colOf_flat (j : Int) (L : List (List (Int × Int))) : ∀ k, (∀ l ∈ L, Svec.Sorted l) →
    Svec.Sorted (colOf j (flat k L)) ∧
    (∀ e ∈ colOf j (flat k L), (k : Int) < e.1 ∧ e.1 ≤ (k : Int) + L.length ∧ ∃ l ∈ L, (j, e.2) ∈ l) ∧
    ∀ i (h : i < L.length), at' (colOf j (flat k L)) ((k + i + 1 : Nat) : Int) = at' L[i] j := by
  induction L with
  | nil =>
    intro k _
    exact ⟨List.Pairwise.nil, by simp [flat, colOf], fun i h => absurd h (by simp)⟩
  | cons l L ih =>
    intro k hs
    obtain ⟨g1, g2, g3⟩ := ih (k + 1) (fun l hl => hs l (List.mem_cons_of_mem _ hl))
    rw [colOf_flat_cons j k l L (hs l List.mem_cons_self)]
    have hout : ∀ e ∈ colOf j (flat (k + 1) L), (k : Int) < e.1 ∧ e.1 ≤ (k : Int) + (l :: L).length ∧
        ∃ l' ∈ l :: L, (j, e.2) ∈ l' := by
      intro e he
      obtain ⟨a, b, l', hl', hm⟩ := g2 e he
      push_cast at a b
      simp only [List.length_cons]
      push_cast
      exact ⟨by omega, by omega, l', List.mem_cons_of_mem _ hl', hm⟩
    cases hf : Svec.find l j with
    | none =>
      simp only [List.nil_append]
      refine ⟨g1, hout, fun i hi => ?_⟩
      cases i with
      | zero =>
        rw [at_none (fun e he hc => by
          have := (g2 e he).1
          push_cast at this hc
          omega)]
        simp only [List.getElem_cons_zero]
        unfold at'
        rw [hf]; rfl
      | succ i =>
        have := g3 i (by simpa using hi)
        rw [show k + 1 + i + 1 = k + (i + 1) + 1 by omega] at this
        simpa only [List.getElem_cons_succ] using this
    | some x =>
      simp only [List.singleton_append]
      refine ⟨List.Pairwise.cons (fun e he => ?_) g1, ?_, fun i hi => ?_⟩
      · have := (g2 e he).1
        simpa using this
      · intro e he
        rcases List.mem_cons.1 he with rfl | he
        · simp only [List.length_cons]
          push_cast
          exact ⟨by omega, by omega, l, List.mem_cons_self, Svec.mem_of_find _ _ _ hf⟩
        · exact hout e he
      · rw [at_cons]
        cases i with
        | zero =>
          rw [if_pos (by simp)]
          simp only [List.getElem_cons_zero]
          unfold at'
          rw [hf]; rfl
        | succ i =>
          rw [if_neg (by push_cast; omega)]
          have := g3 i (by simpa using hi)
          rw [show k + 1 + i + 1 = k + (i + 1) + 1 by omega] at this
          simpa only [List.getElem_cons_succ] using this

theorem mem_flat (L : List (List (Int × Int))) : ∀ k, ∀ t ∈ flat k L, ∃ l ∈ L, t.2 ∈ l := by
  induction L with
  | nil => intro k t ht; simp [flat] at ht
  | cons l L ih =>
    intro k t ht
    rw [flat, List.mem_append, List.mem_map] at ht
    rcases ht with ⟨e, he, rfl⟩ | ht
    · exact ⟨l, List.mem_cons_self, he⟩
    · obtain ⟨l', hl', h⟩ := ih _ t ht
      exact ⟨l', List.mem_cons_of_mem _ hl', h⟩

/-- `transpose` -/
theorem C47_transpose {m : SM} {A : Matrix (Fin r) (Fin c) ℤ} (hA : Rep z m A) :
    ∃ m', transpose m = some m' ∧ Rep z m' A.transpose := by
  -- the entries of the rows
  have hL : ∃ L : List (List (Int × Int)), m.rows.map Row.read = L.map some ∧ L.length = r ∧
      ∀ i (h : i < L.length) (h' : i < r), Is z L[i] (A ⟨i, h'⟩) := by
    obtain ⟨L, e, hl, hp⟩ := mapM_spec Row.read
      (fun i l => ∀ h' : i < r, (m.rows.map Row.read)[i]? = some (some l) ∧ Is z l (A ⟨i, h'⟩)) m.rows 0 (by
      intro i hi
      obtain ⟨l, el, hil⟩ := hA.row' i hi
      refine ⟨l, el, fun h' => ⟨?_, by simpa using hil⟩⟩
      rw [Nat.zero_add, List.getElem?_map, List.getElem?_eq_getElem hi, Option.map_some, el])
    have hlen : L.length = r := by rw [hl, hA.nro]
    refine ⟨L, ?_, hlen, fun i h h' => ?_⟩
    · apply List.ext_getElem (by simp [hl])
      intro i h1 h2
      have hi : i < L.length := by simpa using h2
      have := (hp i hi (by omega)).1
      rw [Nat.zero_add, List.getElem?_eq_getElem h1, Option.some.injEq] at this
      rw [this]; simp
    · have := (hp i h (by omega)).2
      simpa using this
  obtain ⟨L, hread, hlen, hIs⟩ := hL
  have hmem : ∀ l ∈ L, ∃ i : Fin r, Is z l (A i) := by
    intro l hl
    obtain ⟨i, hi, rfl⟩ := List.getElem_of_mem hl
    exact ⟨⟨i, by omega⟩, hIs i hi (by omega)⟩
  have hsorted : ∀ l ∈ L, Svec.Sorted l := fun l hl => by
    obtain ⟨i, hi⟩ := hmem l hl; exact hi.wf.sorted
  have hrange : ∀ t ∈ flat 0 L, 1 ≤ t.2.1 ∧ t.2.1 ≤ (c : Int) := by
    intro t ht
    obtain ⟨l, hl, h⟩ := mem_flat L 0 t ht
    obtain ⟨i, hi⟩ := hmem l hl
    exact hi.wf.range _ h
  -- step 1
  obtain ⟨w, ew, hw1, hw2⟩ := count_spec c (flat 0 L) (List.replicate c 0) (by simp) hrange
  have ew' : m.rows.foldlM (fun w (r : Row) => r.read.bind (countCols w)) (List.replicate c 0) = some w := by
    rw [← ew, ← fold_rows (fun _ (w : List Nat) (e : Int × Int) =>
      if 1 ≤ e.1 ∧ e.1 ≤ (w.length : Int) then some (w.modify (e.1 - 1).toNat (· + 1)) else none) m.rows L 0
      (List.replicate c 0) hread]
    have : ∀ (rows : List Row) (k : Nat) (w : List Nat),
        rows.foldlM (fun w (r : Row) => r.read.bind (countCols w)) w =
        (rows.zipIdx k).foldlM (fun w (e : Row × Nat) => e.1.read.bind fun l => l.foldlM
          (fun (w : List Nat) (e : Int × Int) =>
            if 1 ≤ e.1 ∧ e.1 ≤ (w.length : Int) then some (w.modify (e.1 - 1).toNat (· + 1)) else none) w) w := by
      intro rows
      induction rows with
      | nil => intro k w; rfl
      | cons a rows ih =>
        intro k w
        rw [List.zipIdx_cons, List.foldlM_cons, List.foldlM_cons]
        have e2 : (fun w => List.foldlM (fun w (r : Row) => r.read.bind (countCols w)) w rows) = _ :=
          funext fun w => ih (k + 1) w
        rw [e2]; rfl
    exact this m.rows 0 _
  -- step 2
  obtain ⟨rows, er, hr1, hr2⟩ := mapM_spec (fun d => (Row.new d).setLen d)
    (fun j (rw' : Row) => rw'.col.get 0 = some ((w.getD j 0 : Nat) : Int) ∧ rw'.Fits (w.getD j 0)) w 0 (by
      intro i hi
      obtain ⟨r1, e1, h1, f1⟩ := new_setLen w[i]
      refine ⟨r1, e1, ?_⟩
      rw [Nat.zero_add, List.getD_eq_getElem _ _ hi]
      exact ⟨h1, f1⟩)
  -- step 3
  have h0 : TInv c (fun j => w.getD j 0) [] (rows, List.replicate c 0) := by
    refine ⟨hr1.trans hw1, by simp, fun j hj => by simp [colOf], fun j hj => ?_⟩
    have := hr2 j hj
    rw [Nat.zero_add] at this
    exact ⟨this.1, this.2, rfl⟩
  obtain ⟨s', es, hs⟩ := trans_fold (flat 0 L) [] _ h0 hrange (fun j hj => by
    have := hw2 j hj
    rw [List.nil_append, this]
    simp)
  rw [List.nil_append] at hs
  refine ⟨⟨m.nro, s'.1⟩, ?_, hs.len1, hA.nro, fun j => ?_⟩
  · unfold transpose
    rw [hA.nco, ew', Option.bind_some, er, Option.bind_some,
      fold_rows (fun k s e => transStep k s e) m.rows L 0 _ hread, es]
    rfl
  · have hj : (j : Nat) < s'.1.length := by rw [hs.len1]; exact j.2
    obtain ⟨r1, r2, r3⟩ := hs.row j hj
    have hwj : w.getD j 0 = (colOf ((j : Nat) + 1 : Int) (flat 0 L)).length := by
      have := hw2 j j.2
      rw [this]
      simp
    simp only [hwj] at r1
    refine ⟨colOf ((j : Nat) + 1 : Int) (flat 0 L), ?_, ?_⟩
    · rw [readRow_eq (m := ⟨m.nro, s'.1⟩) hj]
      exact (read_iff _ _).2 ⟨r1, r3⟩
    · obtain ⟨g1, g2, g3⟩ := colOf_flat ((j : Nat) + 1 : Int) L 0 hsorted
      refine ⟨⟨g1, fun e he => ?_⟩, fun i => ?_, fun hz e he => ?_⟩
      · obtain ⟨a, b, _⟩ := g2 e he
        rw [hlen] at b
        simp only at a b ⊢
        push_cast at a b
        omega
      · have h := g3 i (by rw [hlen]; exact i.2)
        rw [Nat.zero_add] at h
        have h2 := (hIs i (by rw [hlen]; exact i.2) i.2).val j
        rw [Matrix.transpose_apply]
        refine Eq.trans ?_ h2
        refine Eq.trans ?_ h
        unfold Svec.elem at'
        simp only
        push_cast
        rfl
      · obtain ⟨_, _, l, hl, hm⟩ := g2 e he
        obtain ⟨i, hi⟩ := hmem l hl
        have := hi.nz hz _ hm
        exact this

/-! ### comparison -/

theorem fold_and {α : Type} (f : α → Option Bool) (l : List α) (P : α → Prop)
    (h : ∀ x ∈ l, ∃ b, f x = some b ∧ (b = true ↔ P x)) : ∀ b0,
    ∃ b, l.foldlM (fun (equal : Bool) e => if equal then f e else some false) b0 = some b ∧
      (b = true ↔ b0 = true ∧ ∀ x ∈ l, P x) := by
  induction l with
  | nil => intro b0; exact ⟨b0, rfl, by simp⟩
  | cons a l ih =>
    intro b0
    have ih' := ih (fun x hx => h x (List.mem_cons_of_mem _ hx))
    rw [List.foldlM_cons]
    cases b0 with
    | false =>
      obtain ⟨b, e, hb⟩ := ih' false
      refine ⟨b, e, ?_⟩
      rw [hb]; simp
    | true =>
      obtain ⟨b1, e1, h1⟩ := h a List.mem_cons_self
      obtain ⟨b, e, hb⟩ := ih' b1
      refine ⟨b, by rw [if_pos rfl, e1]; exact e, ?_⟩
      rw [hb, h1]
      simp

theorem is_ext {l1 l2 : List (Int × Int)} {a b : Fin c → ℤ} (h1 : Is True l1 a) (h2 : Is True l2 b) :
    l1 = l2 ↔ a = b := by
  constructor
  · rintro rfl
    funext j
    rw [← h1.val j, h2.val j]
  · intro hab
    refine Svec.sorted_ext l1 l2 h1.wf.sorted h2.wf.sorted fun i => ?_
    have hcase : ∀ {l : List (Int × Int)} {a : Fin c → ℤ}, Is True l a →
        Svec.find l i = if Svec.elem ⟨c, l⟩ i = 0 then none else some (Svec.elem ⟨c, l⟩ i) := by
      intro l a h
      unfold Svec.elem
      simp only
      cases hf : Svec.find l i with
      | none => simp
      | some x =>
        have := h.nz trivial _ (Svec.mem_of_find _ _ _ hf)
        simp only [Option.getD_some]
        rw [if_neg this]
    rw [hcase h1, hcase h2]
    have : Svec.elem ⟨c, l1⟩ i = Svec.elem ⟨c, l2⟩ i := by
      by_cases hi : 1 ≤ i ∧ i ≤ (c : Int)
      · have e1 := h1.val ⟨(i - 1).toNat, by omega⟩
        have e2 := h2.val ⟨(i - 1).toNat, by omega⟩
        have ei : (((i - 1).toNat : Nat) : Int) + 1 = i := by omega
        simp only [ei] at e1 e2
        rw [e1, e2, hab]
      · rw [elem_out h1.wf hi, elem_out h2.wf hi]
    rw [this]

/-- `operator==` for matrices of the same size without stored zeros -/
theorem C47_eq {a b : SM} {A B : Matrix (Fin r) (Fin c) ℤ} (hA : Rep True a A) (hB : Rep True b B) :
    ∃ t, eq a b = some t ∧ (t = true ↔ A = B) := by
  unfold eq
  have hn : a.nro = r := hA.nro
  have hn' : b.nro = r := hB.nro
  rw [hn, hn', if_neg (by simp)]
  have hz : ∀ i : Nat, ∀ h : i < (a.rows.zip b.rows).length, ∃ (hi : i < r) (l1 l2 : List (Int × Int)),
      ((a.rows.zip b.rows)[i]).1.read = some l1 ∧ ((a.rows.zip b.rows)[i]).2.read = some l2 ∧
      Is True l1 (A ⟨i, hi⟩) ∧ Is True l2 (B ⟨i, hi⟩) := by
    intro i h
    rw [List.length_zip] at h
    have ha : i < a.rows.length := by omega
    have hb : i < b.rows.length := by omega
    obtain ⟨l1, e1, i1⟩ := hA.row' i ha
    obtain ⟨l2, e2, i2⟩ := hB.row' i hb
    refine ⟨by rw [hA.nro] at ha; exact ha, l1, l2, ?_, ?_, i1, i2⟩
    · rw [List.getElem_zip]; exact e1
    · rw [List.getElem_zip]; exact e2
  obtain ⟨t, e, ht⟩ := fold_and (fun e : Row × Row => match e.1.read, e.2.read with
      | some l1, some l2 => some (decide (l1 = l2))
      | _, _ => none) (a.rows.zip b.rows) (fun e => e.1.read = e.2.read) (by
    intro x hx
    obtain ⟨i, hi, rfl⟩ := List.getElem_of_mem hx
    obtain ⟨_, l1, l2, e1, e2, _, _⟩ := hz i hi
    refine ⟨decide (l1 = l2), by rw [e1, e2], ?_⟩
    rw [decide_eq_true_iff, e1, e2, Option.some.injEq]) true
  refine ⟨t, e, ?_⟩
  rw [ht]
  simp only [true_and]
  constructor
  · intro h
    funext i
    have hi : (i : Nat) < (a.rows.zip b.rows).length := by
      rw [List.length_zip, hA.nro, hB.nro]; have := i.2; omega
    obtain ⟨_, l1, l2, e1, e2, i1, i2⟩ := hz i hi
    have := h _ (List.getElem_mem hi)
    rw [e1, e2, Option.some.injEq] at this
    exact (is_ext i1 i2).1 this
  · intro hAB x hx
    obtain ⟨i, hi, rfl⟩ := List.getElem_of_mem hx
    obtain ⟨hr, l1, l2, e1, e2, i1, i2⟩ := hz i hi
    rw [e1, e2, Option.some.injEq]
    exact (is_ext i1 i2).2 (by rw [hAB])

/-- `operator==` compares the stored entries only: matrices with different numbers of columns may be
equal, and a stored zero makes a difference -/
theorem C47_eq_fails : eq (new 1 1) (new 1 2) = some true ∧
    ∃ m m' : SM, Rep False m (0 : Matrix (Fin 1) (Fin 1) ℤ) ∧ Rep False m' (0 : Matrix (Fin 1) (Fin 1) ℤ) ∧
      eq m m' = some false := by
  refine ⟨by decide, new 1 1, ⟨1, [⟨[some 1, some 1], [some 0]⟩]⟩, (C47_new 1 1).mono False.elim, ?_, by decide⟩
  refine ⟨rfl, rfl, fun i => ⟨[(1, 0)], ?_, ⟨by simp [Svec.Sorted], by simp⟩, fun j => ?_, False.elim⟩⟩
  · obtain rfl : i = 0 := Subsingleton.elim _ _
    decide
  · obtain rfl : i = 0 := Subsingleton.elim _ _
    obtain rfl : j = 0 := Subsingleton.elim _ _
    decide

/-- no stored value is divisible by `p` -/
def NoMult (p : Int) (m : SM) : Prop := ∀ i l, m.readRow i = some l → ∀ e ∈ l, ¬ p ∣ e.2

theorem cong_sub {p x y : Int} : Spec.Cong p x y ↔ p ∣ x - y := by
  constructor
  · rintro ⟨q, hq⟩; exact ⟨q, by linarith⟩
  · rintro ⟨q, hq⟩; exact ⟨q, by linarith⟩

theorem eqmod_rows (t : T) (p : Int) {l1 l2 : List (Int × Int)} {a b : Fin c → ℤ} (h1 : Is False l1 a)
    (h2 : Is False l2 b) :
    ((l1.map Prod.fst = l2.map Prod.fst && (l1.zip l2).all fun e => sxmod t (e.1.2 - e.2.2) p == 0) = true →
      ∀ j, Spec.Cong p (a j) (b j)) ∧
    ((∀ e ∈ l1, ¬ p ∣ e.2) → (∀ e ∈ l2, ¬ p ∣ e.2) → (∀ j, Spec.Cong p (a j) (b j)) →
      (l1.map Prod.fst = l2.map Prod.fst && (l1.zip l2).all fun e => sxmod t (e.1.2 - e.2.2) p == 0) = true) := by
  have key1 : ∀ (l1 l2 : List (Int × Int)), l1.map Prod.fst = l2.map Prod.fst →
      ((l1.zip l2).all fun e => sxmod t (e.1.2 - e.2.2) p == 0) = true →
      ∀ j, p ∣ at' l1 j - at' l2 j := by
    intro l1
    induction l1 with
    | nil =>
      intro l2 h _ j
      have : l2 = [] := by simpa using h.symm
      subst this
      simp [at_nil]
    | cons e l1 ih =>
      intro l2 h hz j
      cases l2 with
      | nil => simp at h
      | cons f l2 =>
        obtain ⟨i, x⟩ := e
        obtain ⟨i', y⟩ := f
        simp only [List.map_cons, List.cons.injEq] at h
        obtain ⟨rfl, h⟩ := h
        rw [List.zip_cons_cons, List.all_cons, Bool.and_eq_true] at hz
        rw [at_cons, at_cons]
        by_cases hj : j = i
        · rw [if_pos hj, if_pos hj]
          exact (Svec.Props.sxmod_eq_zero t _ p).1 (by simpa using hz.1)
        · rw [if_neg hj, if_neg hj]
          exact ih l2 h hz.2 j
  have key2 : ∀ (l1 l2 : List (Int × Int)), Svec.Sorted l1 → Svec.Sorted l2 → (∀ e ∈ l1, ¬ p ∣ e.2) →
      (∀ e ∈ l2, ¬ p ∣ e.2) → (∀ j, p ∣ at' l1 j - at' l2 j) →
      l1.map Prod.fst = l2.map Prod.fst ∧
        ((l1.zip l2).all fun e => sxmod t (e.1.2 - e.2.2) p == 0) = true := by
    intro l1
    induction l1 with
    | nil =>
      intro l2 _ hs _ n2 h
      cases l2 with
      | nil => simp
      | cons f l2 =>
        obtain ⟨i, y⟩ := f
        have := h i
        rw [at_nil, at_cons, if_pos rfl, zero_sub, dvd_neg] at this
        exact absurd this (n2 (i, y) List.mem_cons_self)
    | cons e l1 ih =>
      intro l2 s1 s2 n1 n2 h
      obtain ⟨i, x⟩ := e
      cases l2 with
      | nil =>
        have := h i
        rw [at_nil, at_cons, if_pos rfl, sub_zero] at this
        exact absurd this (n1 (i, x) List.mem_cons_self)
      | cons f l2 =>
        obtain ⟨i', y⟩ := f
        have hi : i = i' := by
          rcases lt_trichotomy i i' with hlt | heq | hgt
          · have := h i
            rw [at_cons, if_pos rfl, at_cons, if_neg (by omega), at_lt s2 (by omega), sub_zero] at this
            exact absurd this (n1 (i, x) List.mem_cons_self)
          · exact heq
          · have := h i'
            rw [at_cons, if_neg (by omega), at_lt s1 (by omega), at_cons, if_pos rfl, zero_sub,
              dvd_neg] at this
            exact absurd this (n2 (i', y) List.mem_cons_self)
        subst hi
        obtain ⟨g1, g2⟩ := ih l2 (List.pairwise_cons.1 s1).2 (List.pairwise_cons.1 s2).2
          (fun e he => n1 e (List.mem_cons_of_mem _ he)) (fun e he => n2 e (List.mem_cons_of_mem _ he))
          (fun j => by
            by_cases hj : j = i
            · rw [hj, at_lt s1 le_rfl, at_lt s2 le_rfl, sub_zero]; exact dvd_zero _
            · have := h j
              rwa [at_cons, if_neg hj, at_cons, if_neg hj] at this)
        refine ⟨by simp [g1], ?_⟩
        rw [List.zip_cons_cons, List.all_cons, Bool.and_eq_true]
        refine ⟨?_, g2⟩
        have := h i
        rw [at_cons, if_pos rfl, at_cons, if_pos rfl] at this
        simpa using (Svec.Props.sxmod_eq_zero t _ p).2 this
  constructor
  · intro h j
    rw [Bool.and_eq_true, decide_eq_true_iff] at h
    rw [cong_sub, ← h1.val j, ← h2.val j]
    exact key1 l1 l2 h.1 h.2 _
  · intro n1 n2 h
    rw [Bool.and_eq_true, decide_eq_true_iff]
    refine key2 l1 l2 h1.wf.sorted h2.wf.sorted n1 n2 fun j => ?_
    by_cases hj : 1 ≤ j ∧ j ≤ (c : Int)
    · have e1 := h1.val ⟨(j - 1).toNat, by omega⟩
      have e2 := h2.val ⟨(j - 1).toNat, by omega⟩
      have ei : (((j - 1).toNat : Nat) : Int) + 1 = j := by omega
      simp only [ei] at e1 e2
      have := cong_sub.1 (h ⟨(j - 1).toNat, by omega⟩)
      rw [← e1, ← e2] at this
      exact this
    · have e1 : at' l1 j = 0 := elem_out h1.wf hj
      have e2 : at' l2 j = 0 := elem_out h2.wf hj
      rw [e1, e2, sub_zero]; exact dvd_zero _

/-- `eqmodp`: a positive answer is right; the answer is exact if no stored value is divisible by `p` -/
theorem C47_eqmodp (t : T) (p : Int) {a b : SM} {A B : Matrix (Fin r) (Fin c) ℤ} (hA : Rep z a A)
    (hB : Rep z' b B) : ∃ v, eqmodp t a b p = some v ∧ (v = true → ∀ i j, Spec.Cong p (A i j) (B i j)) ∧
      (NoMult p a → NoMult p b → (∀ i j, Spec.Cong p (A i j) (B i j)) → v = true) := by
  unfold eqmodp
  have hn : a.nro = r := hA.nro
  have hn' : b.nro = r := hB.nro
  rw [hn, hn', if_neg (by simp)]
  have hz : ∀ i : Nat, ∀ h : i < (a.rows.zip b.rows).length, ∃ (hi : i < r) (l1 l2 : List (Int × Int)),
      ((a.rows.zip b.rows)[i]).1.read = some l1 ∧ ((a.rows.zip b.rows)[i]).2.read = some l2 ∧
      a.readRow i = some l1 ∧ b.readRow i = some l2 ∧
      Is False l1 (A ⟨i, hi⟩) ∧ Is False l2 (B ⟨i, hi⟩) := by
    intro i h
    rw [List.length_zip] at h
    have ha : i < a.rows.length := by omega
    have hb : i < b.rows.length := by omega
    obtain ⟨l1, e1, i1⟩ := hA.row' i ha
    obtain ⟨l2, e2, i2⟩ := hB.row' i hb
    refine ⟨by rw [hA.nro] at ha; exact ha, l1, l2, ?_, ?_, ?_, ?_, i1.mono False.elim, i2.mono False.elim⟩
    · rw [List.getElem_zip]; exact e1
    · rw [List.getElem_zip]; exact e2
    · rw [readRow_eq ha]; exact e1
    · rw [readRow_eq hb]; exact e2
  obtain ⟨v, e, hv⟩ := fold_and (fun e : Row × Row => match e.1.read, e.2.read with
      | some l1, some l2 =>
        some (l1.map Prod.fst = l2.map Prod.fst &&
          (l1.zip l2).all fun e => sxmod t (e.1.2 - e.2.2) p == 0)
      | _, _ => none) (a.rows.zip b.rows)
    (fun e => ∃ l1 l2, e.1.read = some l1 ∧ e.2.read = some l2 ∧
      (l1.map Prod.fst = l2.map Prod.fst && (l1.zip l2).all fun e => sxmod t (e.1.2 - e.2.2) p == 0) = true) (by
    intro x hx
    obtain ⟨i, hi, rfl⟩ := List.getElem_of_mem hx
    obtain ⟨_, l1, l2, e1, e2, _⟩ := hz i hi
    refine ⟨_, by rw [e1, e2], ⟨fun h => ⟨l1, l2, e1, e2, h⟩, ?_⟩⟩
    rintro ⟨l1', l2', e1', e2', h⟩
    rw [e1, Option.some.injEq] at e1'
    rw [e2, Option.some.injEq] at e2'
    subst e1' e2'
    exact h) true
  refine ⟨v, e, fun h i j => ?_, fun n1 n2 h => ?_⟩
  · have h' := (hv.1 h).2
    have hi : (i : Nat) < (a.rows.zip b.rows).length := by
      rw [List.length_zip, hA.nro, hB.nro]; have := i.2; omega
    obtain ⟨_, l1, l2, e1, e2, _, _, i1, i2⟩ := hz i hi
    obtain ⟨l1', l2', e1', e2', h⟩ := h' _ (List.getElem_mem hi)
    rw [e1, Option.some.injEq] at e1'
    rw [e2, Option.some.injEq] at e2'
    subst e1' e2'
    exact (eqmod_rows t p i1 i2).1 h j
  · refine hv.2 ⟨rfl, fun x hx => ?_⟩
    obtain ⟨i, hi, rfl⟩ := List.getElem_of_mem hx
    obtain ⟨hr, l1, l2, e1, e2, f1, f2, i1, i2⟩ := hz i hi
    exact ⟨l1, l2, e1, e2, (eqmod_rows t p i1 i2).2 (n1 i l1 f1) (n2 i l2 f2) (h ⟨i, hr⟩)⟩

/-- an entry divisible by `p` is not equal to an absent one -/
theorem C47_eqmodp_fails : ∃ m : SM, Rep True m (Matrix.of ![![5]]) ∧
    eqmodp .int m (new 1 1) 5 = some false := by
  refine ⟨⟨1, [⟨[some 1, some 1], [some 5]⟩]⟩, ?_, by decide⟩
  refine ⟨rfl, rfl, fun i => ⟨[(1, 5)], ?_, ⟨by simp [Svec.Sorted], by simp⟩, fun j => ?_, by simp⟩⟩
  · obtain rfl : i = 0 := Subsingleton.elim _ _
    decide
  · obtain rfl : i = 0 := Subsingleton.elim _ _
    obtain rfl : j = 0 := Subsingleton.elim _ _
    decide

/-! ### counts -/

/-- `maxabs`: the largest absolute value of an entry, 0 for a matrix without entries -/
theorem C47_maxabs {m : SM} {A : Matrix (Fin r) (Fin c) ℤ} (hA : Rep True m A) :
    ∃ x, maxabs m = some x ∧ 0 ≤ x ∧ (∀ i j, |A i j| ≤ x) ∧ (x = 0 ∨ ∃ i j, |A i j| = x) := by
  have inner : ∀ (l : List (Int × Int)) (a : Int), a ≤ l.foldl (fun a e => max a |e.2|) a ∧
      (∀ e ∈ l, |e.2| ≤ l.foldl (fun a e => max a |e.2|) a) ∧
      (l.foldl (fun a e => max a |e.2|) a = a ∨ ∃ e ∈ l, |e.2| = l.foldl (fun a e => max a |e.2|) a) := by
    intro l
    induction l with
    | nil => intro a; simp
    | cons e l ih =>
      intro a
      obtain ⟨g1, g2, g3⟩ := ih (max a |e.2|)
      rw [List.foldl_cons]
      refine ⟨le_trans (le_max_left _ _) g1, ?_, ?_⟩
      · intro f hf
        rcases List.mem_cons.1 hf with rfl | hf
        · exact le_trans (le_max_right _ _) g1
        · exact g2 f hf
      · rcases g3 with h | ⟨f, hf, h⟩
        · rcases max_choice a |e.2| with h' | h'
          · left; rw [h, h']
          · right; exact ⟨e, List.mem_cons_self, by rw [h, h']⟩
        · right; exact ⟨f, List.mem_cons_of_mem _ hf, h⟩
  obtain ⟨x, e, h⟩ := foldlM_spec (fun a (r : Row) => r.read.map fun l => l.foldl (fun a e => max a |e.2|) a)
    (fun n x => 0 ≤ x ∧ (∀ i : Fin r, (i : Nat) < n → ∀ j, |A i j| ≤ x) ∧ (x = 0 ∨ ∃ i j, |A i j| = x))
    m.rows 0 0 ⟨le_rfl, fun i hi => absurd hi (by omega), Or.inl rfl⟩ (by
      rintro i hi a ⟨h1, h2, h3⟩
      obtain ⟨l, el, hl⟩ := hA.row' i hi
      have hir : i < r := by rw [hA.nro] at hi; exact hi
      rw [Nat.zero_add] at h2 ⊢
      refine ⟨l.foldl (fun a e => max a |e.2|) a, by rw [el]; rfl, ?_⟩
      obtain ⟨g1, g2, g3⟩ := inner l a
      refine ⟨le_trans h1 g1, ?_, ?_⟩
      · intro k hk j
        by_cases hki : (k : Nat) < i
        · exact le_trans (h2 k hki j) g1
        · obtain rfl : k = ⟨i, hir⟩ := Fin.ext (by simp only; omega)
          rw [← hl.val j]
          unfold Svec.elem
          simp only
          cases hf : Svec.find l ((j : Nat) + 1 : Int) with
          | none => simpa using le_trans h1 g1
          | some y => exact g2 _ (Svec.mem_of_find _ _ _ hf)
      · rcases g3 with h | ⟨f, hf, h⟩
        · rw [h]; exact h3
        · right
          have hr := hl.wf.range f hf
          simp only at hr
          refine ⟨⟨i, hir⟩, ⟨(f.1 - 1).toNat, by omega⟩, ?_⟩
          rw [← h, ← hl.val]
          have ei : (((f.1 - 1).toNat : Nat) : Int) + 1 = f.1 := by omega
          simp only [ei]
          unfold Svec.elem
          simp only
          rw [Svec.find_of_mem l hl.wf.sorted f.1 f.2 hf]
          rfl)
  refine ⟨x, e, h.1, fun i j => h.2.1 i ?_ j, h.2.2⟩
  rw [Nat.zero_add, hA.nro]; exact i.2

/-- `scalar_matrix(n,a)` is `a·1` -/
theorem C47_scalarMatrix (n : Nat) (a : Int) :
    ∃ m, scalarMatrix n a = some m ∧ Rep (a ≠ 0) m (a • (1 : Matrix (Fin n) (Fin n) ℤ)) := by
  unfold scalarMatrix
  obtain ⟨rows, e, hl, hp⟩ := mapM_spec (diagRow a)
    (fun i (rw' : Row) => rw'.read = some [(((i + 1 : Nat) : Int), a)]) (new n n).rows.zipIdx 0 (by
      intro i hi
      rw [List.getElem_zipIdx]
      simp only [new, List.getElem_replicate, Nat.zero_add]
      refine ⟨⟨[some 1, some ((i + 1 : Nat) : Int)], [some a]⟩, rfl, rfl⟩)
  have hlen : rows.length = n := by rw [hl]; simp [new]
  refine ⟨⟨n, rows⟩, by rw [e]; rfl, rep_of_rows rows hlen fun i hi => ?_⟩
  have := hp i hi
  rw [Nat.zero_add] at this
  refine ⟨_, this, ⟨by simp [Svec.Sorted], ?_⟩, fun j => ?_, by simp⟩
  · intro e he
    rw [List.mem_singleton] at he
    subst he
    simp only
    omega
  · unfold Svec.elem
    simp only [Svec.find, Matrix.smul_apply, Matrix.one_apply, smul_eq_mul]
    by_cases hij : i = j
    · subst hij
      simp
    · rw [if_neg (by push_cast; omega), if_neg (fun hc => hij (by rw [← hc]))]
      simp

theorem length_row {l : List (Int × Int)} {a : Fin c → ℤ} (hl : Is True l a) :
    (l.filter fun e => e.1 ≠ 0).length = (Finset.univ.filter fun j : Fin c => a j ≠ 0).card := by
  have e1 : (l.filter fun e => e.1 ≠ 0) = l := by
    rw [List.filter_eq_self]
    intro e he
    have := (hl.wf.range e he).1
    simp; omega
  have hnd : (l.map Prod.fst).Nodup := by
    have hs : l.Pairwise fun a b => a.1 < b.1 := hl.wf.sorted
    rw [List.Nodup, List.pairwise_map]
    exact hs.imp fun h => ne_of_lt h
  have himg : (Finset.univ.filter fun j : Fin c => a j ≠ 0).image (fun j : Fin c => (j : Int) + 1) =
      (l.map Prod.fst).toFinset := by
    ext x
    simp only [Finset.mem_image, Finset.mem_filter, Finset.mem_univ, true_and, List.mem_toFinset,
      List.mem_map]
    constructor
    · rintro ⟨j, hj, rfl⟩
      rw [← hl.val j] at hj
      unfold Svec.elem at hj
      simp only at hj
      cases hf : Svec.find l ((j : Nat) + 1 : Int) with
      | none => rw [hf] at hj; exact absurd rfl hj
      | some y => exact ⟨_, Svec.mem_of_find _ _ _ hf, rfl⟩
    · rintro ⟨e, he, rfl⟩
      have hr := hl.wf.range e he
      simp only at hr
      refine ⟨⟨(e.1 - 1).toNat, by omega⟩, ?_, by simp only; omega⟩
      rw [← hl.val]
      have ei : (((e.1 - 1).toNat : Nat) : Int) + 1 = e.1 := by omega
      simp only [ei]
      unfold Svec.elem
      simp only
      rw [Svec.find_of_mem l hl.wf.sorted e.1 e.2 he]
      exact hl.nz trivial e he
  rw [e1, ← List.length_map Prod.fst, ← List.toFinset_card_of_nodup hnd, ← himg,
    Finset.card_image_of_injective]
  intro i j hij
  apply Fin.ext
  have : (i : Int) + 1 = j + 1 := hij
  omega

/-- `get_population`: the number of non-zero entries, row by row -/
theorem C47_population {m : SM} {A : Matrix (Fin r) (Fin c) ℤ} (hA : Rep True m A) :
    population m = some (∑ i : Fin r, (Finset.univ.filter fun j : Fin c => A i j ≠ 0).card) := by
  obtain ⟨x, e, h⟩ := foldlM_spec
    (fun n (r : Row) => r.read.map fun l => n + (l.filter fun e => e.1 ≠ 0).length)
    (fun n x => x = ∑ i : Fin r, if (i : Nat) < n then (Finset.univ.filter fun j : Fin c => A i j ≠ 0).card else 0)
    m.rows 0 0 (by simp) (by
      intro i hi a ha
      obtain ⟨l, el, hl⟩ := hA.row' i hi
      have hir : i < r := by rw [hA.nro] at hi; exact hi
      refine ⟨a + (l.filter fun e => e.1 ≠ 0).length, by rw [el]; rfl, ?_⟩
      rw [Nat.zero_add] at ha ⊢
      rw [ha, length_row hl]
      have : ∀ k : Fin r, (if (k : Nat) < i + 1 then (Finset.univ.filter fun j : Fin c => A k j ≠ 0).card else 0) =
          (if (k : Nat) < i then (Finset.univ.filter fun j : Fin c => A k j ≠ 0).card else 0) +
          if k = ⟨i, hir⟩ then (Finset.univ.filter fun j : Fin c => A k j ≠ 0).card else 0 := by
        intro k
        by_cases hk : k = ⟨i, hir⟩
        · rw [if_pos hk, hk, if_pos (by simp), if_neg (by simp), Nat.zero_add]
        · have hk' : (k : Nat) ≠ i := fun hc => hk (Fin.ext hc)
          rw [if_neg hk]
          by_cases h1 : (k : Nat) < i
          · rw [if_pos h1, if_pos (by omega)]; rfl
          · rw [if_neg h1, if_neg (by omega)]
      rw [Finset.sum_congr rfl fun k _ => this k, Finset.sum_add_distrib, Finset.sum_ite_eq']
      simp)
  unfold population
  rw [e, h]
  congr 1
  refine Finset.sum_congr rfl fun i _ => ?_
  rw [if_pos (by rw [Nat.zero_add, hA.nro]; exact i.2)]

/-! a case for the hypotheses: a 2×3 matrix -/

/-- the rows (3, 0, -1) and (0, 5, 0) -/
def caseM : SM := ⟨3, [⟨[some 2, some 1, some 3], [some 3, some (-1)]⟩, ⟨[some 1, some 2], [some 5]⟩]⟩

theorem case_rep : Rep True caseM (Matrix.of ![![3, 0, -1], ![0, 5, 0]]) := by
  refine ⟨rfl, rfl, fun i => ?_⟩
  fin_cases i
  · refine ⟨[(1, 3), (3, -1)], by decide, ⟨by simp [Svec.Sorted], by simp⟩, fun j => ?_, by simp⟩
    fin_cases j <;> decide
  · refine ⟨[(2, 5)], by decide, ⟨by simp [Svec.Sorted], by simp⟩, fun j => ?_, by simp⟩
    fin_cases j <;> decide

example : ∃ m', transpose caseM = some m' ∧ m'.readRow 2 = some [(1, -1)] := ⟨_, rfl, by decide⟩

end Eclib.Smat.Props
