import Verif.Smat.Model
import Verif.Svec.Props
import Mathlib.Data.List.GetD
import Mathlib.Data.Matrix.Mul
import Mathlib.Data.Matrix.Diagonal
import Mathlib.LinearAlgebra.Matrix.RowCol

/-!
# Lemmas for the sparse matrices: reading and writing the arrays of a row
-/

namespace Eclib.Smat

open Svec (T SV smod sxmod sxmodmul sdiv)

/-! ### cells -/

theorem get_put {b b' : Buf} {i : Nat} {v : Int} (h : b.put i v = some b') (j : Nat) :
    b'.get j = if j = i then some v else b.get j := by
  unfold Buf.put at h
  split_ifs at h with hi
  cases h
  unfold Buf.get
  rw [List.getElem?_set]
  by_cases hj : i = j
  · subst hj; simp [hi]
  · rw [if_neg hj, if_neg (Ne.symm hj)]

theorem length_put {b b' : Buf} {i : Nat} {v : Int} (h : b.put i v = some b') :
    b'.length = b.length := by
  unfold Buf.put at h
  split_ifs at h with hi
  cases h
  simp

theorem put_some {b : Buf} {i : Nat} (v : Int) (h : i < b.length) : ∃ b', b.put i v = some b' := by
  unfold Buf.put
  exact ⟨_, if_pos h⟩

theorem lt_of_get {b : Buf} {i : Nat} {v : Int} (h : b.get i = some v) : i < b.length := by
  unfold Buf.get at h
  by_contra hc
  rw [List.getElem?_eq_none (by omega)] at h
  simp at h

/-! ### rows -/

/-- the capacity of the arrays -/
def Row.Fits (r : Row) (n : Nat) : Prop := n + 1 ≤ r.col.length ∧ n ≤ r.val.length

theorem fits_new (n : Nat) : (Row.new n).Fits n := by
  simp [Row.Fits, Row.new, Buf.new]

theorem Row.Fits.mono {r : Row} {n k : Nat} (h : r.Fits n) (hk : k ≤ n) : r.Fits k :=
  ⟨by have := h.1; omega, by have := h.2; omega⟩

theorem fill_spec (l : List (Int × Int)) : ∀ (r : Row) (k : Nat), r.Fits (k + l.length) →
    ∃ r', r.fill k l = some r' ∧ r'.col.length = r.col.length ∧ r'.val.length = r.val.length ∧
      (∀ j, j ≤ k → r'.col.get j = r.col.get j) ∧ (∀ j, j < k → r'.val.get j = r.val.get j) ∧
      r'.readFrom k l.length = some l := by
  induction l with
  | nil => intro r k _; exact ⟨r, rfl, rfl, rfl, fun _ _ => rfl, fun _ _ => rfl, rfl⟩
  | cons e l ih =>
    obtain ⟨c, v⟩ := e
    intro r k h
    have h1 := h.1
    have h2 := h.2
    simp only [List.length_cons] at h1 h2
    obtain ⟨col, hc⟩ := put_some (b := r.col) (i := k + 1) c (by omega)
    obtain ⟨val, hv⟩ := put_some (b := r.val) (i := k) v (by omega)
    obtain ⟨r', hr, l1, l2, g1, g2, g3⟩ := ih ⟨col, val⟩ (k + 1)
      ⟨by simp only [length_put hc]; omega, by simp only [length_put hv]; omega⟩
    refine ⟨r', ?_, ?_, ?_, ?_, ?_, ?_⟩
    · simp only [Row.fill, hc, hv]; exact hr
    · rw [l1]; exact length_put hc
    · rw [l2]; exact length_put hv
    · intro j hj
      rw [g1 j (by omega)]
      simp only [get_put hc, if_neg (show j ≠ k + 1 by omega)]
    · intro j hj
      rw [g2 j (by omega)]
      simp only [get_put hv, if_neg (show j ≠ k by omega)]
    · have e1 : r'.col.get (k + 1) = some c := by
        rw [g1 (k + 1) le_rfl]; simp only [get_put hc, if_true]
      have e2 : r'.val.get k = some v := by
        rw [g2 k (by omega)]; simp only [get_put hv, if_true]
      simp only [List.length_cons, Row.readFrom, e1, e2, g3]

theorem readFrom_congr (r r' : Row) (n : Nat) : ∀ k,
    (∀ j, k + 1 ≤ j → r'.col.get j = r.col.get j) → r'.val = r.val →
    r'.readFrom k n = r.readFrom k n := by
  induction n with
  | zero => intros; rfl
  | succ n ih =>
    intro k h1 h2
    simp only [Row.readFrom]
    rw [h1 (k + 1) le_rfl, h2, ih (k + 1) (fun j hj => h1 j (by omega)) h2]

theorem readFrom_length (r : Row) (n : Nat) : ∀ k l, r.readFrom k n = some l → l.length = n := by
  induction n with
  | zero => intro k l h; simp only [Row.readFrom, Option.some.injEq] at h; subst h; rfl
  | succ n ih =>
    intro k l h
    simp only [Row.readFrom] at h
    split at h
    · cases h
      simp [ih _ _ (by assumption)]
    · cases h

theorem readFrom_fits (r : Row) (n : Nat) : ∀ k l, r.readFrom k n = some l → 0 < n → r.Fits (k + n) := by
  induction n with
  | zero => intro k l _ h; omega
  | succ n ih =>
    intro k l h _
    simp only [Row.readFrom] at h
    split at h
    · rename_i c v l' h1 h2 h3
      have a1 := lt_of_get h1
      have a2 := lt_of_get h2
      by_cases hn : 0 < n
      · have := ih _ _ h3 hn
        rwa [show k + (n + 1) = k + 1 + n by omega]
      · have : n = 0 := by omega
        subst this
        exact ⟨by omega, by omega⟩
    · cases h

theorem read_iff (r : Row) (l : List (Int × Int)) : r.read = some l ↔
    r.col.get 0 = some (l.length : Int) ∧ r.readFrom 0 l.length = some l := by
  unfold Row.read
  constructor
  · intro h
    split at h
    · cases h
    · rename_i d hd
      split_ifs at h with hneg
      have := readFrom_length _ _ _ _ h
      have e : d = (l.length : Int) := by omega
      refine ⟨by rw [hd, e], ?_⟩
      rw [this]; exact h
  · rintro ⟨h1, h2⟩
    rw [h1]
    simp only [Int.toNat_natCast]
    rw [if_neg (by omega)]
    exact h2

theorem read_fits {r : Row} {l : List (Int × Int)} (h : r.read = some l) : r.Fits l.length := by
  obtain ⟨h1, h2⟩ := (read_iff r l).1 h
  by_cases hl : 0 < l.length
  · have := readFrom_fits _ _ _ _ h2 hl
    rwa [Nat.zero_add] at this
  · have := lt_of_get h1
    exact ⟨by omega, by omega⟩

theorem setLen_spec {r : Row} {n : Nat} {l : List (Int × Int)} (h : r.Fits n) (hl : l.length = n)
    (hr : r.readFrom 0 n = some l) : ∃ r', r.setLen n = some r' ∧ r'.read = some l := by
  subst hl
  obtain ⟨col, hc⟩ := put_some (b := r.col) (i := 0) (l.length : Int) (by have := h.1; omega)
  refine ⟨⟨col, r.val⟩, by simp only [Row.setLen, hc, Option.map_some], ?_⟩
  rw [read_iff]
  refine ⟨by simp only [get_put hc, if_true], ?_⟩
  rw [readFrom_congr r ⟨col, r.val⟩ l.length 0 (fun j hj => by
    simp only [get_put hc, if_neg (show j ≠ 0 by omega)]) rfl]
  exact hr

theorem setLen_fits {r r' : Row} {n : Nat} (h : r.setLen n = some r') (k : Nat) :
    r'.Fits k ↔ r.Fits k := by
  unfold Row.setLen at h
  rw [Option.map_eq_some_iff] at h
  obtain ⟨col, hc, rfl⟩ := h
  simp only [Row.Fits, length_put hc]

/-- writing a row into fresh arrays that are large enough -/
theorem make_spec (n : Nat) (l : List (Int × Int)) (h : l.length ≤ n) :
    ∃ r, Row.make n l = some r ∧ r.read = some l := by
  obtain ⟨r, hr, l1, l2, _, _, g⟩ := fill_spec l (Row.new n) 0 (by
    rw [Nat.zero_add]; exact (fits_new n).mono h)
  have hf : r.Fits l.length := by
    have := (fits_new n).mono h
    simpa only [Row.Fits, l1, l2] using this
  obtain ⟨r', e, g'⟩ := setLen_spec hf rfl g
  refine ⟨r', ?_, g'⟩
  unfold Row.make
  rw [hr]; exact e

/-- overwriting a row whose count is right already -/
theorem refill_spec {r : Row} {l : List (Int × Int)} (h : r.col.get 0 = some (l.length : Int))
    (hf : r.Fits l.length) : ∃ r', r.fill 0 l = some r' ∧ r'.read = some l := by
  obtain ⟨r', hr, _, _, g1, _, g⟩ := fill_spec l r 0 (by rwa [Nat.zero_add])
  exact ⟨r', hr, (read_iff _ _).2 ⟨by rw [g1 0 le_rfl]; exact h, g⟩⟩

theorem new_setLen (n : Nat) : ∃ r, (Row.new n).setLen n = some r ∧ r.col.get 0 = some (n : Int) ∧
    r.Fits n := by
  obtain ⟨col, hc⟩ := put_some (b := (Row.new n).col) (i := 0) (n : Int) (by
    have := (fits_new n).1; omega)
  refine ⟨⟨col, (Row.new n).val⟩, by simp only [Row.setLen, hc, Option.map_some],
    by simp only [get_put hc, if_true], ?_⟩
  have := fits_new n
  simpa only [Row.Fits, length_put hc] using this

/-! ### loops -/

theorem mapM_spec {α β : Type} (f : α → Option β) (P : Nat → β → Prop) (l : List α) :
    ∀ k, (∀ i (h : i < l.length), ∃ b, f l[i] = some b ∧ P (k + i) b) →
    ∃ l', l.mapM f = some l' ∧ l'.length = l.length ∧ ∀ i (h : i < l'.length), P (k + i) l'[i] := by
  induction l with
  | nil => intro k _; exact ⟨[], rfl, rfl, fun i h => absurd h (by simp)⟩
  | cons a l ih =>
    intro k h
    obtain ⟨b, hb, pb⟩ := h 0 (by simp)
    obtain ⟨l', e, hl, hp⟩ := ih (k + 1) (fun i hi => by
      have := h (i + 1) (by simpa using hi)
      simpa only [List.getElem_cons_succ, Nat.add_assoc, Nat.add_comm 1 i] using this)
    refine ⟨b :: l', ?_, by simp [hl], ?_⟩
    · rw [List.mapM_cons]
      simp only [List.getElem_cons_zero] at hb
      rw [hb, e]; rfl
    · intro i hi
      cases i with
      | zero => exact pb
      | succ i =>
        have := hp i (by simpa using hi)
        simpa only [List.getElem_cons_succ, Nat.add_assoc, Nat.add_comm 1 i] using this

theorem foldlM_spec {σ α : Type} (f : σ → α → Option σ) (Inv : Nat → σ → Prop) (l : List α) :
    ∀ k s, Inv k s →
    (∀ i (h : i < l.length) s, Inv (k + i) s → ∃ s', f s l[i] = some s' ∧ Inv (k + i + 1) s') →
    ∃ s', l.foldlM f s = some s' ∧ Inv (k + l.length) s' := by
  induction l with
  | nil => intro k s h _; exact ⟨s, rfl, by simpa using h⟩
  | cons a l ih =>
    intro k s h0 h
    obtain ⟨s1, e1, h1⟩ := h 0 (by simp) s (by simpa using h0)
    obtain ⟨s', e, h'⟩ := ih (k + 1) s1 (by simpa using h1) (fun i hi s hs => by
      have := h (i + 1) (by simpa using hi) s (by
        rw [show k + (i + 1) = k + 1 + i by omega]; exact hs)
      rw [show k + (i + 1) = k + 1 + i by omega] at this
      simpa only [List.getElem_cons_succ] using this)
    refine ⟨s', ?_, ?_⟩
    · rw [List.foldlM_cons]
      simp only [List.getElem_cons_zero] at e1
      rw [e1]; exact e
    · rw [List.length_cons, show k + (l.length + 1) = k + 1 + l.length by omega]; exact h'

theorem foldlM_range {σ : Type} (f : σ → Nat → Option σ) (Inv : Nat → σ → Prop) (n : Nat) (s : σ)
    (h0 : Inv 0 s) (h : ∀ i, i < n → ∀ s, Inv i s → ∃ s', f s i = some s' ∧ Inv (i + 1) s') :
    ∃ s', (List.range n).foldlM f s = some s' ∧ Inv n s' := by
  have := foldlM_spec f Inv (List.range n) 0 s h0 (by
    intro i hi s hs
    rw [List.getElem_range]
    rw [Nat.zero_add] at hs ⊢
    exact h i (by simpa using hi) s hs)
  simpa using this

/-! ### the matrix represented by a sparse matrix -/

open Svec.Props (WF)

/-- the entries `l` represent the vector `a`: columns increasing and in `1..c`, the entry in column
`j+1` (0 if there is none) is `a j`; if `z` holds, there are no entries with value 0 -/
structure Is (z : Prop) {c : Nat} (l : List (Int × Int)) (a : Fin c → ℤ) : Prop where
  wf : WF ⟨c, l⟩
  val : ∀ j : Fin c, Svec.elem ⟨c, l⟩ (j + 1 : Int) = a j
  nz : z → ∀ e ∈ l, e.2 ≠ 0

/-- the sparse matrix `m` represents the matrix `A`: the dimensions are right and the arrays of each
row are readable and represent the row of `A`; if `z` holds, zeros are not stored -/
structure Rep (z : Prop) (m : SM) {r c : Nat} (A : Matrix (Fin r) (Fin c) ℤ) : Prop where
  nro : m.rows.length = r
  nco : m.nco = c
  row : ∀ i : Fin r, ∃ l, m.readRow i = some l ∧ Is z l (A i)

variable {z : Prop}

theorem Is.congr {c : Nat} {l : List (Int × Int)} {a b : Fin c → ℤ} (h : Is z l a) (e : ∀ j, a j = b j) :
    Is z l b := ⟨h.1, fun j => by rw [h.2 j, e j], h.3⟩

theorem Is.mono {z' : Prop} {c : Nat} {l : List (Int × Int)} {a : Fin c → ℤ} (h : Is z l a) (hz : z' → z) :
    Is z' l a := ⟨h.1, h.2, fun hz' => h.3 (hz hz')⟩

theorem Rep.mono {z' : Prop} {m : SM} {r c : Nat} {A : Matrix (Fin r) (Fin c) ℤ} (h : Rep z m A)
    (hz : z' → z) : Rep z' m A :=
  ⟨h.1, h.2, fun i => by obtain ⟨l, e, hl⟩ := h.3 i; exact ⟨l, e, hl.mono hz⟩⟩

theorem elem_out {v : SV} (h : WF v) {j : Int} (hj : ¬ (1 ≤ j ∧ j ≤ (v.d : Int))) : Svec.elem v j = 0 := by
  have e : Svec.find v.entries j = none :=
    Svec.find_none_of _ _ (fun e he hc => hj (hc ▸ h.range e he))
  unfold Svec.elem
  rw [e]; rfl

/-- `readRow` from the row itself -/
theorem readRow_eq {m : SM} {i : Nat} (h : i < m.rows.length) : m.readRow i = m.rows[i].read := by
  unfold SM.readRow
  rw [List.getElem?_eq_getElem h]; rfl

theorem Rep.row' {m : SM} {r c : Nat} {A : Matrix (Fin r) (Fin c) ℤ} (h : Rep z m A) (i : Nat)
    (hi : i < m.rows.length) : ∃ l, m.rows[i].read = some l ∧ Is z l (A ⟨i, h.nro ▸ hi⟩) := by
  obtain ⟨l, e, hl⟩ := h.row ⟨i, h.nro ▸ hi⟩
  exact ⟨l, by rw [← e, readRow_eq hi], hl⟩

theorem rep_of_rows {r c : Nat} {A : Matrix (Fin r) (Fin c) ℤ} (rows : List Row) (hr : rows.length = r)
    (h : ∀ i (hi : i < rows.length), ∃ l, rows[i].read = some l ∧ Is z l (A ⟨i, hr ▸ hi⟩)) :
    Rep z ⟨c, rows⟩ A := by
  refine ⟨hr, rfl, fun i => ?_⟩
  obtain ⟨l, e, hl⟩ := h i (by rw [hr]; exact i.2)
  exact ⟨l, by rw [readRow_eq (m := ⟨c, rows⟩) (by rw [hr]; exact i.2)]; exact e, hl⟩

/-- an operation that treats the rows one by one -/
theorem mapRows_spec {z' : Prop} {m : SM} {r c : Nat} {A B : Matrix (Fin r) (Fin c) ℤ} (hA : Rep z m A)
    (f : Nat → Row → List (Int × Int) → Option Row)
    (h : ∀ (i : Fin r) (rw : Row) (l : List (Int × Int)), rw.read = some l → Is z l (A i) →
      ∃ r' l', f i rw l = some r' ∧ r'.read = some l' ∧ Is z' l' (B i)) :
    ∃ m', m.mapRows f = some m' ∧ Rep z' m' B := by
  obtain ⟨rows, e, hl, hp⟩ := mapM_spec (fun (e : Row × Nat) => e.1.read.bind (f e.2 e.1))
    (fun i r' => ∀ hi : i < r, ∃ l, r'.read = some l ∧ Is z' l (B ⟨i, hi⟩)) m.rows.zipIdx 0 (by
      intro i hi
      have hi' : i < m.rows.length := by simpa using hi
      obtain ⟨l, hl, hi2⟩ := hA.row' i hi'
      obtain ⟨r', l', e1, e2, e3⟩ := h ⟨i, hA.nro ▸ hi'⟩ _ l hl hi2
      refine ⟨r', ?_, fun _ => ⟨l', e2, by simpa using e3⟩⟩
      rw [List.getElem_zipIdx]
      simp only [Nat.zero_add]
      rw [hl]; exact e1)
  have hlen : rows.length = r := by rw [hl, List.length_zipIdx, hA.nro]
  refine ⟨⟨m.nco, rows⟩, ?_, ?_⟩
  · unfold SM.mapRows
    rw [e]; rfl
  · rw [hA.nco]
    exact rep_of_rows rows hlen (fun i hi => by simpa using hp i hi (by rw [hlen] at hi; omega))

/-- replacing a row -/
theorem putRow_spec {m : SM} {r c : Nat} {A : Matrix (Fin r) (Fin c) ℤ} (hA : Rep z m A) (i : Fin r)
    {rw' : Row} {l : List (Int × Int)} {a : Fin c → ℤ} (hr : rw'.read = some l) (hl : Is z l a) :
    Rep z (m.putRow i rw') (A.updateRow i a) := by
  refine ⟨by simp [SM.putRow, hA.nro], hA.nco, fun k => ?_⟩
  have hk : (k : Nat) < (m.putRow i rw').rows.length := by simp [SM.putRow, hA.nro]
  rw [readRow_eq hk]
  simp only [SM.putRow]
  rw [List.getElem_set]
  by_cases hik : (i : Nat) = k
  · have : i = k := Fin.ext hik
    subst this
    refine ⟨l, by rw [if_pos rfl]; exact hr, ?_⟩
    rw [Matrix.updateRow_self]; exact hl
  · have : k ≠ i := fun h => hik (by rw [h])
    rw [if_neg hik]
    obtain ⟨l', e, hl'⟩ := hA.row' k (by rw [hA.nro]; exact k.2)
    refine ⟨l', e, ?_⟩
    rw [Matrix.updateRow_ne this]; exact hl'

/-- the vector with entries from 1 to `c` summed over `Fin c` -/
theorem sum_Icc (c : Nat) (f : Int → Int) :
    ∑ i ∈ Finset.Icc (1 : Int) c, f i = ∑ j : Fin c, f (j + 1 : Int) := by
  symm
  refine Finset.sum_bij (fun (j : Fin c) _ => (j : Int) + 1) ?_ ?_ ?_ ?_
  · intro j _
    have := j.2
    rw [Finset.mem_Icc]; omega
  · intro j _ k _ h
    apply Fin.ext
    have : (j : Int) + 1 = k + 1 := h
    omega
  · intro b hb
    rw [Finset.mem_Icc] at hb
    refine ⟨⟨(b - 1).toNat, by omega⟩, Finset.mem_univ _, ?_⟩
    simp only
    omega
  · intros; rfl

theorem sum_entries' {c : Nat} {l : List (Int × Int)} {a : Fin c → ℤ} (h : Is z l a) (f : Int → Int) :
    (l.map fun e => e.2 * f e.1).sum = ∑ j : Fin c, a j * f (j + 1 : Int) := by
  rw [Svec.Props.sum_entries l c f h.wf.sorted h.wf.range, sum_Icc c]
  exact Finset.sum_congr rfl fun j _ => by rw [← h.val j]; rfl

end Eclib.Smat
