import Verif.Smat.Props

/-!
# Property theorems for the sparse matrices (C47): sums, scalars, reduction
-/

namespace Eclib.Smat.Props

open Svec (T SV smod sxmod sxmodmul sdiv)
open Svec.Props (WF NoZero Red RedVec)

variable {z : Prop} {r c : Nat}

/-! ### sums -/

/-- the value in column `j` -/
def at' (l : List (Int × Int)) (j : Int) : Int := (Svec.find l j).getD 0

theorem at_nil (j : Int) : at' [] j = 0 := rfl

theorem at_cons (k x : Int) (l : List (Int × Int)) (j : Int) :
    at' ((k, x) :: l) j = if j = k then x else at' l j := by
  unfold at'
  rw [Svec.find_cons]
  split_ifs <;> rfl

theorem at_none {l : List (Int × Int)} {j : Int} (h : ∀ e ∈ l, e.1 ≠ j) : at' l j = 0 := by
  unfold at'
  rw [Svec.find_none_of _ _ h]; rfl

theorem at_lt {k x : Int} {l : List (Int × Int)} (h : Svec.Sorted ((k, x) :: l)) {j : Int} (hj : j ≤ k) :
    at' l j = 0 :=
  at_none fun e he hc => by
    have := (List.pairwise_cons.1 h).1 e he
    simp only at this
    omega

theorem mergeRows_spec (f : Int → Int) (hf : f 0 = 0) (hf' : ∀ y, y ≠ 0 → f y ≠ 0)
    (l1 l2 : List (Int × Int)) :
    Svec.Sorted l1 → Svec.Sorted l2 →
    (mergeRows f l1 l2).length ≤ l1.length + l2.length ∧
    Svec.Sorted (mergeRows f l1 l2) ∧
    (∀ e ∈ mergeRows f l1 l2, (∃ e' ∈ l1, e'.1 = e.1) ∨ ∃ e' ∈ l2, e'.1 = e.1) ∧
    (∀ j, at' (mergeRows f l1 l2) j = at' l1 j + f (at' l2 j)) ∧
    ((∀ e ∈ l1, e.2 ≠ 0) → (∀ e ∈ l2, e.2 ≠ 0) → ∀ e ∈ mergeRows f l1 l2, e.2 ≠ 0) := by
  fun_induction mergeRows f l1 l2 with
  | case1 l2 =>
    intro _ h2
    refine ⟨by simp, Svec.Props.sorted_map l2 f h2, ?_, ?_, ?_⟩
    · intro e he
      rw [List.mem_map] at he
      obtain ⟨e', he', rfl⟩ := he
      exact Or.inr ⟨e', he', rfl⟩
    · intro j
      unfold at'
      rw [Svec.Props.find_map]
      cases Svec.find l2 j with
      | none => simp [Svec.find, hf]
      | some x => simp [Svec.find]
    · intro _ hz e he
      rw [List.mem_map] at he
      obtain ⟨e', he', rfl⟩ := he
      exact hf' _ (hz e' he')
  | case2 l1 =>
    intro h1 _
    refine ⟨by simp, h1, fun e he => Or.inl ⟨e, he, rfl⟩, fun j => by simp [at_nil, hf], fun h _ => h⟩
  | case3 i x l1 j y l2 hij ih =>
    intro h1 h2
    obtain ⟨g1, g2, g3, g4, g5⟩ := ih (List.pairwise_cons.1 h1).2 h2
    refine ⟨by simp only [List.length_cons] at g1 ⊢; omega, ?_, ?_, ?_, ?_⟩
    · refine List.Pairwise.cons (fun e he => ?_) g2
      rcases g3 e he with ⟨e', he', h'⟩ | ⟨e', he', h'⟩
      · rw [← h']; exact (List.pairwise_cons.1 h1).1 e' he'
      · rw [← h']
        rcases List.mem_cons.1 he' with rfl | he'
        · exact hij
        · exact lt_trans hij ((List.pairwise_cons.1 h2).1 e' he')
    · intro e he
      rcases List.mem_cons.1 he with rfl | he
      · exact Or.inl ⟨_, List.mem_cons_self, rfl⟩
      · rcases g3 e he with ⟨e', he', h'⟩ | h'
        · exact Or.inl ⟨e', List.mem_cons_of_mem _ he', h'⟩
        · exact Or.inr h'
    · intro k
      rw [at_cons, at_cons, g4]
      split_ifs with hk
      · subst hk
        have : at' ((j, y) :: l2) k = 0 := by
          rw [at_cons, if_neg (by omega)]
          exact at_lt h2 (le_of_lt hij)
        rw [this, hf, add_zero]
      · rfl
    · intro n1 n2 e he
      rcases List.mem_cons.1 he with rfl | he
      · exact n1 (i, x) List.mem_cons_self
      · exact g5 (fun e he => n1 e (List.mem_cons_of_mem _ he)) n2 e he
  | case4 i x l1 j y l2 hij hji ih =>
    intro h1 h2
    obtain ⟨g1, g2, g3, g4, g5⟩ := ih h1 (List.pairwise_cons.1 h2).2
    refine ⟨by simp only [List.length_cons] at g1 ⊢; omega, ?_, ?_, ?_, ?_⟩
    · refine List.Pairwise.cons (fun e he => ?_) g2
      rcases g3 e he with ⟨e', he', h'⟩ | ⟨e', he', h'⟩
      · rw [← h']
        rcases List.mem_cons.1 he' with rfl | he'
        · exact hji
        · exact lt_trans hji ((List.pairwise_cons.1 h1).1 e' he')
      · rw [← h']; exact (List.pairwise_cons.1 h2).1 e' he'
    · intro e he
      rcases List.mem_cons.1 he with rfl | he
      · exact Or.inr ⟨_, List.mem_cons_self, rfl⟩
      · rcases g3 e he with h' | ⟨e', he', h'⟩
        · exact Or.inl h'
        · exact Or.inr ⟨e', List.mem_cons_of_mem _ he', h'⟩
    · intro k
      rw [at_cons, at_cons j, g4]
      split_ifs with hk
      · subst hk
        have : at' ((i, x) :: l1) k = 0 := by
          rw [at_cons, if_neg (by omega)]
          exact at_lt h1 (le_of_lt hji)
        rw [this, zero_add]
      · rfl
    · intro n1 n2 e he
      rcases List.mem_cons.1 he with rfl | he
      · exact hf' _ (n2 (j, y) List.mem_cons_self)
      · exact g5 n1 (fun e he => n2 e (List.mem_cons_of_mem _ he)) e he
  | case5 i x l1 j y l2 hij hji hs ih =>
    intro h1 h2
    have hij' : i = j := by omega
    subst hij'
    obtain ⟨g1, g2, g3, g4, g5⟩ := ih (List.pairwise_cons.1 h1).2 (List.pairwise_cons.1 h2).2
    refine ⟨by simp only [List.length_cons] at g1 ⊢; omega, ?_, ?_, ?_, ?_⟩
    · refine List.Pairwise.cons (fun e he => ?_) g2
      rcases g3 e he with ⟨e', he', h'⟩ | ⟨e', he', h'⟩
      · rw [← h']; exact (List.pairwise_cons.1 h1).1 e' he'
      · rw [← h']; exact (List.pairwise_cons.1 h2).1 e' he'
    · intro e he
      rcases List.mem_cons.1 he with rfl | he
      · exact Or.inl ⟨_, List.mem_cons_self, rfl⟩
      · rcases g3 e he with ⟨e', he', h'⟩ | ⟨e', he', h'⟩
        · exact Or.inl ⟨e', List.mem_cons_of_mem _ he', h'⟩
        · exact Or.inr ⟨e', List.mem_cons_of_mem _ he', h'⟩
    · intro k
      rw [at_cons, at_cons, at_cons, g4]
      split_ifs <;> rfl
    · intro n1 n2 e he
      rcases List.mem_cons.1 he with rfl | he
      · exact hs
      · exact g5 (fun e he => n1 e (List.mem_cons_of_mem _ he))
          (fun e he => n2 e (List.mem_cons_of_mem _ he)) e he
  | case6 i x l1 j y l2 hij hji hs ih =>
    intro h1 h2
    have hij' : i = j := by omega
    subst hij'
    obtain ⟨g1, g2, g3, g4, g5⟩ := ih (List.pairwise_cons.1 h1).2 (List.pairwise_cons.1 h2).2
    refine ⟨by simp only [List.length_cons] at g1 ⊢; omega, g2, ?_, ?_, ?_⟩
    · intro e he
      rcases g3 e he with ⟨e', he', h'⟩ | ⟨e', he', h'⟩
      · exact Or.inl ⟨e', List.mem_cons_of_mem _ he', h'⟩
      · exact Or.inr ⟨e', List.mem_cons_of_mem _ he', h'⟩
    · intro k
      rw [at_cons, at_cons, g4]
      split_ifs with hk
      · subst hk
        rw [at_lt h1 le_rfl, at_lt h2 le_rfl, hf, add_zero]
        simp only [ne_eq, not_not] at hs
        exact hs.symm
      · rfl
    · intro n1 n2
      exact g5 (fun e he => n1 e (List.mem_cons_of_mem _ he))
          (fun e he => n2 e (List.mem_cons_of_mem _ he))

theorem combine_spec (f : Int → Int) (hf : f 0 = 0) (hf' : ∀ y, y ≠ 0 → f y ≠ 0) {m m2 : SM}
    {A B : Matrix (Fin r) (Fin c) ℤ} (hA : Rep z m A) (hB : Rep z m2 B) :
    ∃ m', combine f m m2 = some m' ∧ Rep z m' (Matrix.of fun i j => A i j + f (B i j)) := by
  unfold combine
  rw [if_pos (show m.nro = m2.nro from hA.nro.trans hB.nro.symm)]
  refine mapRows_spec hA _ fun i rw l _ hl => ?_
  obtain ⟨l2, e2, hl2⟩ := hB.row i
  obtain ⟨g1, g2, g3, g4, g5⟩ := mergeRows_spec f hf hf' l l2 hl.wf.sorted hl2.wf.sorted
  obtain ⟨r', e, hr⟩ := make_spec (l.length + l2.length) (mergeRows f l l2) g1
  refine ⟨r', _, by rw [e2]; exact e, hr, ⟨g2, fun e he => ?_⟩, fun j => ?_, fun hz =>
    g5 (hl.nz hz) (hl2.nz hz)⟩
  · rcases g3 e he with ⟨e', he', h'⟩ | ⟨e', he', h'⟩
    · rw [← h']; exact hl.wf.range e' he'
    · rw [← h']; exact hl2.wf.range e' he'
  · rw [Matrix.of_apply, ← hl.val j, ← hl2.val j]
    exact g4 _

/-- `operator+=(smat)` -/
theorem C47_iadd {m m2 : SM} {A B : Matrix (Fin r) (Fin c) ℤ} (hA : Rep z m A) (hB : Rep z m2 B) :
    ∃ m', iadd m m2 = some m' ∧ Rep z m' (A + B) :=
  combine_spec id rfl (fun _ h => h) hA hB

/-- `operator-=(smat)` -/
theorem C47_isub {m m2 : SM} {A B : Matrix (Fin r) (Fin c) ℤ} (hA : Rep z m A) (hB : Rep z m2 B) :
    ∃ m', isub m m2 = some m' ∧ Rep z m' (A - B) := by
  obtain ⟨m', e, h⟩ := combine_spec (- ·) (by simp) (fun y h => by simpa using h) hA hB
  refine ⟨m', e, ?_⟩
  have e2 : (Matrix.of fun i j => A i j + -(B i j)) = A - B := by
    ext i j; simp [sub_eq_add_neg]
  rwa [e2] at h

/-- with different numbers of rows nothing is changed -/
theorem C47_incompatible {m m2 : SM} (h : m.rows.length ≠ m2.rows.length) :
    iadd m m2 = some m ∧ isub m m2 = some m := by
  have h' : ¬ m.nro = m2.nro := h
  exact ⟨if_neg h', if_neg h'⟩

/-! ### scalars -/

theorem addDiag_spec (s i : Int) (hs : s ≠ 0) (l : List (Int × Int)) : Svec.Sorted l →
    (addDiag s i l).length ≤ l.length + 1 ∧ Svec.Sorted (addDiag s i l) ∧
    (∀ e ∈ addDiag s i l, e.1 = i ∨ ∃ e' ∈ l, e'.1 = e.1) ∧
    (∀ j, at' (addDiag s i l) j = at' l j + if j = i then s else 0) ∧
    ((∀ e ∈ l, e.2 ≠ 0) → ∀ e ∈ addDiag s i l, e.2 ≠ 0) := by
  induction l with
  | nil =>
    intro _
    refine ⟨by simp [addDiag], by simp [addDiag, Svec.Sorted], by simp [addDiag], fun j => ?_, ?_⟩
    · simp only [addDiag]
      rw [at_cons, at_nil, zero_add]
    · intro _ e he
      simp only [addDiag, List.mem_singleton] at he
      rw [he]; exact hs
  | cons e l ih =>
    obtain ⟨j, x⟩ := e
    intro h
    have h' := List.pairwise_cons.1 h
    obtain ⟨g1, g2, g3, g4, g5⟩ := ih h'.2
    simp only [addDiag]
    split_ifs with h1 h2 h3
    · refine ⟨by simp only [List.length_cons]; omega, ?_, ?_, ?_, ?_⟩
      · refine List.Pairwise.cons (fun e he => ?_) g2
        rcases g3 e he with h' | ⟨e', he', hh⟩
        · rw [h']; exact h1
        · rw [← hh]; exact h'.1 e' he'
      · intro e he
        rcases List.mem_cons.1 he with rfl | he
        · exact Or.inr ⟨_, List.mem_cons_self, rfl⟩
        · rcases g3 e he with h' | ⟨e', he', hh⟩
          · exact Or.inl h'
          · exact Or.inr ⟨e', List.mem_cons_of_mem _ he', hh⟩
      · intro k
        rw [at_cons, at_cons, g4]
        by_cases hk : k = j
        · rw [if_pos hk, if_pos hk, if_neg (by omega), add_zero]
        · rw [if_neg hk, if_neg hk]
      · intro n e he
        rcases List.mem_cons.1 he with rfl | he
        · exact n (j, x) List.mem_cons_self
        · exact g5 (fun e he => n e (List.mem_cons_of_mem _ he)) e he
    · subst h2
      refine ⟨by simp, List.Pairwise.cons h'.1 h'.2, ?_, ?_, ?_⟩
      · intro e he
        rcases List.mem_cons.1 he with rfl | he
        · exact Or.inl rfl
        · exact Or.inr ⟨e, List.mem_cons_of_mem _ he, rfl⟩
      · intro k
        rw [at_cons, at_cons]
        split_ifs <;> simp
      · intro n e he
        rcases List.mem_cons.1 he with rfl | he
        · exact h3
        · exact n e (List.mem_cons_of_mem _ he)
    · subst h2
      refine ⟨by simp only [List.length_cons]; omega, h'.2, fun e he => Or.inr ⟨e, List.mem_cons_of_mem _ he, rfl⟩,
        ?_, fun n e he => n e (List.mem_cons_of_mem _ he)⟩
      intro k
      rw [at_cons]
      by_cases hk : k = j
      · rw [if_pos hk, if_pos hk, hk, at_lt h le_rfl]
        simp only [ne_eq, not_not] at h3
        exact h3.symm
      · rw [if_neg hk, if_neg hk, add_zero]
    · refine ⟨by simp, ?_, ?_, ?_, ?_⟩
      · refine List.Pairwise.cons (fun e he => ?_) h
        have hij : i < j := by omega
        rcases List.mem_cons.1 he with rfl | he
        · exact hij
        · exact lt_trans hij (h'.1 e he)
      · intro e he
        rcases List.mem_cons.1 he with rfl | he
        · exact Or.inl rfl
        · exact Or.inr ⟨e, he, rfl⟩
      · intro k
        rw [at_cons, at_cons]
        by_cases hk : k = i
        · rw [if_pos hk, if_pos hk, if_neg (by omega), at_lt h (by omega), zero_add]
        · rw [if_neg hk, if_neg hk, add_zero]
      · intro n e he
        rcases List.mem_cons.1 he with rfl | he
        · exact hs
        · exact n e he

/-- `operator+=(scalar)`: the scalar is added on the diagonal.  The matrix must not have more rows than
columns, see `C47_addScalar_tall`. -/
theorem C47_addScalar {m : SM} {A : Matrix (Fin r) (Fin c) ℤ} (hA : Rep z m A) (s : Int) (hrc : r ≤ c) :
    ∃ m', addScalar m s = some m' ∧
      Rep z m' (Matrix.of fun i j => A i j + if (i : Nat) = j then s else 0) := by
  unfold addScalar
  by_cases hs : s = 0
  · rw [if_pos hs]
    refine ⟨m, rfl, ?_⟩
    convert hA using 1
    ext i j
    simp [hs]
  rw [if_neg hs]
  refine mapRows_spec hA _ fun i rw l _ hl => ?_
  obtain ⟨g1, g2, g3, g4, g5⟩ := addDiag_spec s (i + 1) hs l hl.wf.sorted
  obtain ⟨r', e, hr⟩ := make_spec (l.length + 1) (addDiag s (i + 1) l) g1
  refine ⟨r', _, e, hr, ⟨g2, fun e he => ?_⟩, fun j => ?_, fun hz => g5 (hl.nz hz)⟩
  · have := i.2
    rcases g3 e he with h' | ⟨e', he', h'⟩
    · simp only; omega
    · rw [← h']; exact hl.wf.range e' he'
  · rw [Matrix.of_apply, ← hl.val j]
    refine (g4 _).trans ?_
    congr 1
    by_cases hij : (i : Nat) = j
    · rw [if_pos hij, if_pos (by omega)]
    · rw [if_neg hij, if_neg (by omega)]

/-- for a square matrix this is `A + s·1` -/
theorem C47_addScalar_square {m : SM} {A : Matrix (Fin r) (Fin r) ℤ} (hA : Rep z m A) (s : Int) :
    ∃ m', addScalar m s = some m' ∧ Rep z m' (A + s • (1 : Matrix (Fin r) (Fin r) ℤ)) := by
  obtain ⟨m', e, h⟩ := C47_addScalar hA s le_rfl
  refine ⟨m', e, ?_⟩
  convert h using 1
  ext i j
  simp only [Matrix.add_apply, Matrix.smul_apply, Matrix.one_apply, Matrix.of_apply, smul_eq_mul]
  by_cases hij : i = j
  · subst hij; simp
  · rw [if_neg hij, if_neg (fun hc => hij (Fin.ext hc))]; simp

/-- for a matrix with more rows than columns an entry is stored in a column that does not exist -/
theorem C47_addScalar_tall : ∃ m', addScalar (new 2 1) 1 = some m' ∧ m'.nco = 1 ∧
    m'.readRow 1 = some [(2, 1)] ∧ asMat m' = none := by
  refine ⟨_, rfl, rfl, by decide, by decide⟩

/-- `operator-=(scalar)` for a square matrix -/
theorem C47_subScalar {m : SM} {A : Matrix (Fin r) (Fin r) ℤ} (hA : Rep z m A) (s : Int) :
    ∃ m', subScalar m s = some m' ∧ Rep z m' (A - s • (1 : Matrix (Fin r) (Fin r) ℤ)) := by
  obtain ⟨m', e, h⟩ := C47_addScalar_square hA (-s)
  refine ⟨m', e, ?_⟩
  rwa [neg_smul, ← sub_eq_add_neg] at h

theorem mapVals_spec (f : Int → Int) {z' : Prop} {m : SM} {A B : Matrix (Fin r) (Fin c) ℤ} (hA : Rep z m A)
    (h : ∀ (i : Fin r) (l : List (Int × Int)), m.readRow i = some l → Is z l (A i) →
      Is z' (l.map fun e => (e.1, f e.2)) (B i)) :
    ∃ m', mapVals m f = some m' ∧ Rep z' m' B := by
  unfold mapVals
  obtain ⟨rows, e, hl, hp⟩ := mapM_spec
    (fun (e : Row × Nat) => e.1.read.bind fun l => e.1.fill 0 (l.map fun e => (e.1, f e.2)))
    (fun i r' => ∀ hi : i < r, ∃ l, r'.read = some l ∧ Is z' l (B ⟨i, hi⟩)) m.rows.zipIdx 0 (by
      intro i hi
      have hi' : i < m.rows.length := by simpa using hi
      obtain ⟨l, el, hil⟩ := hA.row ⟨i, hA.nro ▸ hi'⟩
      have el' := el
      rw [readRow_eq hi'] at el'
      obtain ⟨h1, _⟩ := (read_iff _ _).1 el'
      obtain ⟨r2, e2, hr2⟩ := refill_spec (r := m.rows[i]) (l := l.map fun e => (e.1, f e.2))
        (by rw [List.length_map]; exact h1) (by rw [List.length_map]; exact read_fits el')
      refine ⟨r2, ?_, fun _ => ⟨_, hr2, by simpa using h _ l el hil⟩⟩
      rw [List.getElem_zipIdx]
      simp only
      rw [el', Option.bind_some]; exact e2)
  have hlen : rows.length = r := by rw [hl, List.length_zipIdx, hA.nro]
  refine ⟨⟨m.nco, rows⟩, by unfold SM.mapRows; rw [e]; rfl, ?_⟩
  rw [hA.nco]
  exact rep_of_rows rows hlen (fun i hi => by simpa using hp i hi (by rw [hlen] at hi; omega))

theorem is_map (f : Int → Int) (h0 : f 0 = 0) {z' : Prop} {l : List (Int × Int)} {a b : Fin c → ℤ} (h : Is z l a)
    (hb : ∀ j, f (a j) = b j) (hz : z' → ∀ e ∈ l, f e.2 ≠ 0) : Is z' (l.map fun e => (e.1, f e.2)) b := by
  refine ⟨Svec.Props.wf_map ⟨c, l⟩ f h.wf, fun j => ?_, fun z' e he => ?_⟩
  · rw [← hb j, ← h.val j]
    unfold Svec.elem
    simp only
    rw [Svec.Props.find_map]
    cases Svec.find l (j + 1 : Int) with
    | none => simp [h0]
    | some x => simp
  · rw [List.mem_map] at he
    obtain ⟨e', he', rfl⟩ := he
    exact hz z' e' he'

/-- `operator*=(scalar)`; zeros are stored if the scalar is 0 -/
theorem C47_imul {m : SM} {A : Matrix (Fin r) (Fin c) ℤ} (hA : Rep z m A) (s : Int) :
    ∃ m', imul m s = some m' ∧ Rep (z ∧ s ≠ 0) m' (s • A) := by
  refine mapVals_spec (· * s) hA fun i l _ hl => ?_
  refine is_map (· * s) (by simp) hl (fun j => ?_) (fun hzs e he => mul_ne_zero (hl.nz hzs.1 e he) hzs.2)
  show A i j * s = s • A i j
  rw [smul_eq_mul, mul_comm]

/-- multiplication by 0 leaves entries that are stored zeros -/
theorem C47_imul_zero : ∃ m m', Rep True m (1 : Matrix (Fin 1) (Fin 1) ℤ) ∧ imul m 0 = some m' ∧
    m'.readRow 0 = some [(1, 0)] := by
  refine ⟨⟨1, [⟨[some 1, some 1], [some 1]⟩]⟩, _, ?_, rfl, by decide⟩
  refine ⟨rfl, rfl, fun i => ⟨[(1, 1)], ?_, ⟨by simp [Svec.Sorted], by simp⟩, fun j => ?_, by simp⟩⟩
  · obtain rfl : i = 0 := Subsingleton.elim _ _
    decide
  · obtain rfl : i = 0 := Subsingleton.elim _ _
    obtain rfl : j = 0 := Subsingleton.elim _ _
    decide

/-- the sparse matrix represents a matrix congruent to `A` modulo `p` -/
def RepMod (p : Int) (z : Prop) (m : SM) (A : Matrix (Fin r) (Fin c) ℤ) : Prop :=
  ∃ B : Matrix (Fin r) (Fin c) ℤ, Rep z m B ∧ ∀ i j, Spec.Cong p (B i j) (A i j)

/-- all stored values are reduced, if the scalar type and modulus need it -/
def RedMat (t : T) (p : Int) (m : SM) : Prop :=
  ∀ i l, m.readRow i = some l → ∀ e ∈ l, Red t p e.2

/-- a case: with a modulus other than BIGPRIME every matrix qualifies -/
example (m : SM) : RedMat .int 7 m := fun _ _ _ _ _ _ h => absurd h (by decide)

theorem mem_of_at {l : List (Int × Int)} {j x : Int} (h : Svec.find l j = some x) : (j, x) ∈ l :=
  Svec.mem_of_find _ _ _ h

/-- `mult_by_scalar_mod_p` -/
theorem C47_mulModP (t : T) {m : SM} {A : Matrix (Fin r) (Fin c) ℤ} (hA : Rep z m A) (s p : Int)
    (hm : RedMat t p m) (hs : Red t p s) :
    ∃ m', mulModP t m s p = some m' ∧ RepMod p False m' (s • A) := by
  obtain ⟨m', e, h⟩ := mapVals_spec (z' := False) (fun x => sxmodmul t x s p)
    (B := Matrix.of fun i (j : Fin c) => match m.readRow i with
      | some l => ((Svec.find l (j + 1 : Int)).map fun x => sxmodmul t x s p).getD 0
      | none => 0) hA (by
    intro i l e hl
    refine ⟨Svec.Props.wf_map ⟨c, l⟩ (fun x => sxmodmul t x s p) hl.wf, fun j => ?_, False.elim⟩
    rw [Matrix.of_apply, e]
    unfold Svec.elem
    exact congrArg (·.getD 0) (Svec.Props.find_map l (fun x => sxmodmul t x s p) _))
  refine ⟨m', e, _, h, fun i j => ?_⟩
  obtain ⟨l, e, hl⟩ := hA.row i
  rw [Matrix.of_apply, e, Matrix.smul_apply, smul_eq_mul, ← hl.val j]
  unfold Svec.elem
  simp only
  cases h : Svec.find l (j + 1 : Int) with
  | none => simp [Svec.Props.cong_refl]
  | some x =>
    simp only [Option.map_some, Option.getD_some]
    rw [mul_comm s x]
    exact Svec.Props.sxmodmul_cong t x s p (hm i l e _ (mem_of_at h)) hs

theorem sdiv_zero (t : T) (s : Int) : sdiv t 0 s = 0 := by
  cases t <;> simp [sdiv]

/-- `operator/=(scalar)`: every entry is divided (floor for `bigint`, truncation for `int` and `long`) -/
theorem C47_idiv (t : T) {m : SM} {A : Matrix (Fin r) (Fin c) ℤ} (hA : Rep z m A) (s : Int) (hs : s ≠ 0) :
    ∃ m', idiv t m s = some m' ∧
      Rep False m' (A.map fun x => match t with
        | .big => x.fdiv s
        | _ => x.tdiv s) := by
  unfold idiv
  rw [if_neg (fun h => hs h.1)]
  refine mapVals_spec (fun x => sdiv t x s) hA fun i l _ hl => ?_
  refine is_map (fun x => sdiv t x s) (sdiv_zero t s) hl (fun j => ?_) False.elim
  cases t <;> rfl

/-- exact division undoes multiplication -/
theorem C47_idiv_exact (t : T) {m : SM} {A : Matrix (Fin r) (Fin c) ℤ} (s : Int) (hs : s ≠ 0)
    (hA : Rep z m (s • A)) : ∃ m', idiv t m s = some m' ∧ Rep False m' A := by
  obtain ⟨m', e, h⟩ := C47_idiv t hA s hs
  refine ⟨m', e, ?_⟩
  convert h using 1
  ext i j
  rw [Matrix.map_apply, Matrix.smul_apply, smul_eq_mul]
  cases t
  · exact (Int.mul_tdiv_cancel_left _ hs).symm
  · exact (Int.mul_tdiv_cancel_left _ hs).symm
  · simp only
    rw [mul_comm, Int.mul_fdiv_cancel _ hs]

/-! ### reduction -/

/-- the residue of least absolute value -/
def Least (p x : Int) : Prop := -|p| < 2 * x ∧ 2 * x ≤ |p|

/-- `reduce_mod_p`: every entry becomes its least residue and no zeros are stored -/
theorem C47_reduceModP (t : T) {m : SM} {A : Matrix (Fin r) (Fin c) ℤ} (hA : Rep z m A) (p : Int)
    (hp : p ≠ 0) : ∃ m' B, reduceModP t m p = some m' ∧ Rep True m' (B : Matrix (Fin r) (Fin c) ℤ) ∧
      ∀ i j, Spec.Cong p (B i j) (A i j) ∧ Least p (B i j) := by
  unfold reduceModP
  have hn : m.nro = r := hA.nro
  rw [hn]
  have hrow : ∀ i : Fin r, ∃ v, row m (i + 1) = some v ∧ SRep True v (A i) := fun i => C47_row hA i
  choose v hv1 hv2 using hrow
  obtain ⟨m', e, hB⟩ := setrows_spec (z' := True) hA.nro hA.nco
    (fun i => by obtain ⟨l, e, _⟩ := hA.row i; exact ⟨l, e⟩)
    (fun s i => (row s (i + 1)).map fun v => Svec.reduceModP t v p)
    (Matrix.of fun (i : Fin r) (j : Fin c) => Svec.elem (Svec.reduceModP t (v i) p) (j + 1 : Int)) (by
      intro i s hs he
      obtain ⟨w1, w2, w3, _⟩ := Svec.Props.C15_reduceModP t (v i) p (hv2 i).wf hp
      refine ⟨Svec.reduceModP t (v i) p, ?_, SRep.of (w2.trans (hv2 i).dim) w1 (fun _ => rfl) fun _ => w3⟩
      have : row s (i + 1) = row m (i + 1) := by
        unfold row
        rw [Nat.add_sub_cancel, he, hs, hA.nco]
      rw [this, hv1 i]; rfl)
  refine ⟨m', _, ?_, hB, fun i j => ?_⟩
  · rw [← e]
    congr 1
    funext a i
    cases row a (i + 1) <;> rfl
  · obtain ⟨_, _, _, w4⟩ := Svec.Props.C15_reduceModP t (v i) p (hv2 i).wf hp
    have := w4 (j + 1 : Int)
    rw [(hv2 i).val j] at this
    exact ⟨this.1, this.2⟩

/-- `sub_mod_p`: the least residues of `A - λ·1` -/
theorem C47_subModP (t : T) {m : SM} {A : Matrix (Fin r) (Fin r) ℤ} (hA : Rep z m A) (lambda p : Int)
    (hp : p ≠ 0) : ∃ m' B, subModP t m lambda p = some m' ∧ Rep True m' (B : Matrix (Fin r) (Fin r) ℤ) ∧
      ∀ i j, Spec.Cong p (B i j) ((A - lambda • (1 : Matrix (Fin r) (Fin r) ℤ)) i j) ∧ Least p (B i j) := by
  obtain ⟨m1, e1, h1⟩ := C47_subScalar hA lambda
  obtain ⟨m', B, e, hB, h⟩ := C47_reduceModP t h1 p hp
  refine ⟨m', B, ?_, hB, h⟩
  unfold subModP
  rw [e1]; exact e

end Eclib.Smat.Props
