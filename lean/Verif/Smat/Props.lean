import Verif.Smat.Lemmas

/-!
# Property theorems for the sparse matrices (C47): construction, access, rows, scalars

A sparse matrix `m` represents a Mathlib matrix `A` over the integers (`Rep z m A`; with `z` true the
stored values are all non-zero).  Each theorem says that the operation succeeds, hence never reads an
unwritten cell nor leaves an array, and that the result represents the result of the same operation on
`A`.
-/

namespace Eclib.Smat.Props

open Svec (T SV smod sxmod sxmodmul sdiv)
open Svec.Props (WF NoZero Red RedVec)

variable {z : Prop} {r c : Nat}

/-- `smat(nr,nc)` is the zero matrix -/
theorem C47_new (r c : Nat) : Rep True (new r c) (0 : Matrix (Fin r) (Fin c) ℤ) := by
  refine ⟨by simp [new], rfl, fun i => ⟨[], ?_, ?_⟩⟩
  · rw [readRow_eq (by simp [new])]
    simp only [new, List.getElem_replicate]
    rfl
  · exact ⟨⟨List.Pairwise.nil, by simp⟩, fun _ => rfl, by simp⟩

/-- the copy constructor -/
theorem C47_copy {m : SM} {A : Matrix (Fin r) (Fin c) ℤ} (h : Rep z m A) :
    ∃ m', copy m = some m' ∧ Rep z m' A :=
  mapRows_spec h _ fun i rw l _ hl => by
    obtain ⟨r', e, hr⟩ := make_spec l.length l le_rfl
    exact ⟨r', l, e, hr, hl⟩

theorem setLen_get {r r' : Row} {n : Nat} (h : r.setLen n = some r') : r'.col.get 0 = some (n : Int) := by
  unfold Row.setLen at h
  rw [Option.map_eq_some_iff] at h
  obtain ⟨col, hc, rfl⟩ := h
  simp only [get_put hc, if_true]

theorem assignRow_spec {old : Row} {l0 : List (Int × Int)} (h : old.read = some l0)
    (l : List (Int × Int)) : ∃ r', assignRow old l = some r' ∧ r'.read = some l := by
  obtain ⟨h1, _⟩ := (read_iff _ _).1 h
  have key : ∀ r : Row, r.Fits l.length →
      ∃ r', ((r.setLen l.length).bind fun r => r.fill 0 l) = some r' ∧ r'.read = some l := by
    intro r hf
    obtain ⟨col, hc⟩ := put_some (b := r.col) (i := 0) (l.length : Int) (by have := hf.1; omega)
    have e : r.setLen l.length = some ⟨col, r.val⟩ := by simp only [Row.setLen, hc, Option.map_some]
    obtain ⟨r', e', hr⟩ := refill_spec (setLen_get e) ((setLen_fits e _).2 hf)
    exact ⟨r', by rw [e]; exact e', hr⟩
  unfold assignRow
  rw [h1]
  simp only
  by_cases hd : (l0.length : Int) = l.length
  · rw [if_neg (by simpa using hd), Option.bind_some]
    exact key old (by have : l0.length = l.length := by omega
                      exact this ▸ read_fits h)
  · rw [if_pos hd]
    obtain ⟨r1, e1, _, f1⟩ := new_setLen l.length
    rw [e1, Option.bind_some]
    exact key r1 f1

/-- `operator=`: the previous value does not matter -/
theorem C47_assign {z' : Prop} {r' c' : Nat} {m sm : SM} {B : Matrix (Fin r') (Fin c') ℤ}
    {A : Matrix (Fin r) (Fin c) ℤ} (h' : Rep z' m B) (h : Rep z sm A) :
    ∃ m', assign m sm = some m' ∧ Rep z m' A := by
  unfold assign
  have hn : m.nro = r' := h'.nro
  have hs : sm.nro = r := h.nro
  rw [hn, hs, h.nco]
  simp only
  have key : ∀ m1 : SM, m1.rows.length = r → m1.nco = c →
      (∀ i (hi : i < m1.rows.length), ∃ l, m1.rows[i].read = some l) →
      ∃ m', (m1.mapRows fun i r _ => (sm.readRow i).bind fun l => assignRow r l) = some m' ∧
        Rep z m' A := by
    intro m1 h1 h2 h3
    obtain ⟨rows, e, hl, hp⟩ := mapM_spec
      (fun (e : Row × Nat) => e.1.read.bind fun _ => (sm.readRow e.2).bind fun l => assignRow e.1 l)
      (fun i r' => ∀ hi : i < r, ∃ l, r'.read = some l ∧ Is z l (A ⟨i, hi⟩)) m1.rows.zipIdx 0 (by
        intro i hi
        have hi' : i < m1.rows.length := by simpa using hi
        obtain ⟨l0, e0⟩ := h3 i hi'
        obtain ⟨l, el, hil⟩ := h.row ⟨i, h1 ▸ hi'⟩
        obtain ⟨r2, e2, hr2⟩ := assignRow_spec e0 l
        refine ⟨r2, ?_, fun _ => ⟨l, hr2, by simpa using hil⟩⟩
        rw [List.getElem_zipIdx]
        simp only [Nat.zero_add] at el ⊢
        rw [e0, Option.bind_some, el]; exact e2)
    have hlen : rows.length = r := by rw [hl, List.length_zipIdx, h1]
    refine ⟨⟨m1.nco, rows⟩, by unfold SM.mapRows; rw [e]; rfl, ?_⟩
    rw [h2]
    exact rep_of_rows rows hlen (fun i hi => by simpa using hp i hi (by rw [hlen] at hi; omega))
  by_cases hr : r' = r
  · rw [if_neg (by simpa using hr)]
    refine key _ (by simp only; rw [h'.nro, hr]) rfl fun i hi => ?_
    obtain ⟨l, e, _⟩ := h'.row' i hi
    exact ⟨l, e⟩
  · rw [if_pos hr]
    refine key _ (by simp [new]) rfl fun i hi => ?_
    obtain ⟨l, e, _⟩ := (C47_new r c).row' i hi
    exact ⟨l, e⟩

/-- the `mat` represents the matrix `A` -/
structure DRep (m : Mat.M) (A : Matrix (Fin r) (Fin c) ℤ) : Prop where
  nr : m.nr = r
  nc : m.nc = c
  len : ∀ v ∈ m.rows, v.length = c
  get : ∀ (i : Fin r) (j : Fin c), m.get i j = A i j

theorem nonzeros_range (v : List Int) : ∀ k, ∀ e ∈ nonzeros k v,
    (k : Int) ≤ e.1 ∧ e.1 < (k : Int) + v.length ∧ e.2 ≠ 0 := by
  induction v with
  | nil => intro k e he; simp [nonzeros] at he
  | cons x v ih =>
    intro k e he
    simp only [nonzeros] at he
    have h2 : ∀ e ∈ nonzeros (k + 1) v, (k : Int) ≤ e.1 ∧ e.1 < (k : Int) + (x :: v).length ∧ e.2 ≠ 0 := by
      intro e he
      have := ih (k + 1) e he
      simp only [List.length_cons]
      push_cast at this ⊢
      exact ⟨by omega, by omega, this.2.2⟩
    split_ifs at he with hx
    · rcases List.mem_cons.1 he with rfl | h
      · simp only [List.length_cons]; push_cast; exact ⟨le_rfl, by omega, hx⟩
      · exact h2 e h
    · exact h2 e he

theorem nonzeros_sorted (v : List Int) : ∀ k, Svec.Sorted (nonzeros k v) := by
  induction v with
  | nil => intro k; exact List.Pairwise.nil
  | cons x v ih =>
    intro k
    simp only [nonzeros]
    split_ifs with hx
    · refine List.Pairwise.cons (fun e he => ?_) (ih (k + 1))
      have := (nonzeros_range v (k + 1) e he).1
      push_cast at this
      show (k : Int) < e.1
      omega
    · exact ih (k + 1)

theorem nonzeros_find (v : List Int) : ∀ k j, j < v.length →
    (Svec.find (nonzeros k v) (k + j : Nat)).getD 0 = v.getD j 0 := by
  induction v with
  | nil => intro k j hj; simp at hj
  | cons x v ih =>
    intro k j hj
    simp only [nonzeros]
    cases j with
    | zero =>
      simp only [Nat.add_zero, List.getD_cons_zero]
      split_ifs with hx
      · rw [Svec.find_cons]; simp
      · rw [Svec.find_none_of _ _ (fun e he hc => by
          have := (nonzeros_range v (k + 1) e he).1
          push_cast at this
          omega)]
        simp only [ne_eq, not_not] at hx
        exact hx.symm
    | succ j =>
      have := ih (k + 1) j (by simpa using hj)
      rw [show k + 1 + j = k + (j + 1) by omega] at this
      rw [List.getD_cons_succ, ← this]
      split_ifs with hx
      · rw [Svec.find_cons, if_neg (by push_cast; omega)]
      · rfl

theorem is_nonzeros (v : List Int) (a : Fin c → ℤ) (hv : v.length = c)
    (ha : ∀ j : Fin c, v.getD j 0 = a j) : Is True (nonzeros 1 v) a := by
  refine ⟨⟨nonzeros_sorted v 1, fun e he => ?_⟩, fun j => ?_, fun _ e he => (nonzeros_range v 1 e he).2.2⟩
  · have := nonzeros_range v 1 e he
    simp only
    push_cast at this
    omega
  · have := nonzeros_find v 1 j (by rw [hv]; exact j.2)
    rw [ha j] at this
    rw [← this]
    unfold Svec.elem
    simp only
    rw [show (j : Int) + 1 = ((1 + j : Nat) : Int) by push_cast; ring]

/-- `smat(mat)` -/
theorem C47_ofMat {m : Mat.M} {A : Matrix (Fin r) (Fin c) ℤ} (h : DRep m A) :
    ∃ m', ofMat m = some m' ∧ Rep True m' A := by
  obtain ⟨rows, e, hl, hp⟩ := mapM_spec (fun v : List Int => Row.make (nonzeros 1 v).length (nonzeros 1 v))
    (fun i r' => ∀ hi : i < r, ∃ l, r'.read = some l ∧ Is True l (A ⟨i, hi⟩)) m.rows 0 (by
      intro i hi
      obtain ⟨r', e, hr⟩ := make_spec (nonzeros 1 m.rows[i]).length (nonzeros 1 m.rows[i]) le_rfl
      refine ⟨r', e, fun h' => ⟨_, hr, is_nonzeros _ _ (h.len _ (List.getElem_mem hi)) fun j => ?_⟩⟩
      rw [← h.get ⟨0 + i, h'⟩ j]
      simp only [Mat.M.get, Nat.zero_add]
      rw [List.getD_eq_getElem m.rows _ hi])
  have hlen : rows.length = r := by rw [hl]; exact h.nr
  refine ⟨⟨c, rows⟩, ?_, rep_of_rows rows hlen (fun i hi => ?_)⟩
  · unfold ofMat
    rw [e, h.nc]; rfl
  · have := hp i hi (by rw [Nat.zero_add]; rw [hlen] at hi; exact hi)
    simpa using this

theorem denseRow_eq (n : Nat) (l : List (Int × Int)) :
    denseRow n l = Svec.asVec ⟨n, l⟩ := by
  unfold denseRow Svec.asVec
  simp only
  generalize List.replicate n (0 : Int) = w
  induction l generalizing w with
  | nil => rfl
  | cons e l ih =>
    rw [List.foldlM_cons, List.foldl_cons]
    by_cases h : 1 ≤ e.1 ∧ e.1 ≤ (n : Int)
    · rw [if_pos h]
      simp only [Option.bind_some, if_pos h, Option.bind_eq_bind]
      exact ih _
    · rw [if_neg h]
      simp only [Option.bind_some, if_neg h, Option.bind_eq_bind, Option.bind_none]
      clear ih
      induction l with
      | nil => rfl
      | cons f l ih => rw [List.foldl_cons]; exact ih

/-- `as_mat` -/
theorem C47_asMat {m : SM} {A : Matrix (Fin r) (Fin c) ℤ} (h : Rep z m A) :
    ∃ m', asMat m = some m' ∧ DRep m' A := by
  obtain ⟨rows, e, hl, hp⟩ := mapM_spec (fun (r : Row) => r.read.bind (denseRow m.nco))
    (fun i v => ∀ hi : i < r, v.length = c ∧ ∀ j : Fin c, v.getD j 0 = A ⟨i, hi⟩ j) m.rows 0 (by
      intro i hi
      obtain ⟨l, e, hl⟩ := h.row' i hi
      obtain ⟨v, hv, hlen, hval⟩ := Svec.Props.C15_asVec _ hl.wf
      refine ⟨v, ?_, fun hi => ⟨hlen, fun j => ?_⟩⟩
      · rw [e, Option.bind_some, denseRow_eq, h.nco]; exact hv
      · rw [hval j j.2, hl.val j]; simp)
  have hl' : rows.length = r := by rw [hl, h.nro]
  refine ⟨⟨m.nco, rows⟩, by unfold asMat; rw [e]; rfl, hl', h.nco, fun v hv => ?_, fun i j => ?_⟩
  · obtain ⟨i, hi, rfl⟩ := List.getElem_of_mem hv
    exact (hp i hi (by simp only at hi; omega)).1
  · have := (hp i (by rw [hl']; exact i.2) (by rw [Nat.zero_add]; exact i.2)).2 j
    simp only [Mat.M.get]
    rw [List.getD_eq_getElem rows _ (by rw [hl']; exact i.2), this]
    simp

theorem row_fold (n : Nat) (l : List (Int × Int)) : ∀ (w : List (Int × Int)),
    Svec.Sorted (w ++ l) →
    l.foldl (fun v e => Svec.set v e.1 e.2) ⟨n, w⟩ = ⟨n, w ++ l.filter fun e => e.2 ≠ 0⟩ := by
  induction l with
  | nil => intro w _; simp
  | cons e l ih =>
    intro w hw
    rw [List.foldl_cons]
    by_cases he : e.2 = 0
    · rw [List.filter_cons_of_neg (by simp [he])]
      have : Svec.set ⟨n, w⟩ e.1 e.2 = ⟨n, w⟩ := by simp [Svec.set, he]
      rw [this]
      exact ih w (hw.sublist (List.Sublist.append_left (List.sublist_cons_self _ _) _))
    · rw [List.filter_cons_of_pos (by simp [he])]
      have h1 : ∀ f ∈ w, f.1 < e.1 := fun f hf =>
        (List.pairwise_append.1 hw).2.2 f hf e (by simp)
      have : Svec.set ⟨n, w⟩ e.1 e.2 = ⟨n, w ++ [e]⟩ := by
        simp only [Svec.set, ne_eq, he, not_false_eq_true, if_true]
        rw [Svec.put_last _ _ _ h1]
      rw [this, ih (w ++ [e]) (by simpa using hw)]
      simp

theorem find_filter (l : List (Int × Int)) (hl : Svec.Sorted l) (j : Int) :
    (Svec.find (l.filter fun e => e.2 ≠ 0) j).getD 0 = (Svec.find l j).getD 0 := by
  induction l with
  | nil => rfl
  | cons e l ih =>
    obtain ⟨k, x⟩ := e
    have hl' := (List.pairwise_cons.1 hl)
    by_cases hx : x = 0
    · rw [List.filter_cons_of_neg (by simp [hx]), Svec.find_cons, ih hl'.2]
      split_ifs with hj
      · subst hj
        rw [Svec.find_none_of _ _ (fun f hf hc => by
          have := hl'.1 f hf
          simp only at this
          omega)]
        simp [hx]
      · rfl
    · rw [List.filter_cons_of_pos (by simp [hx]), Svec.find_cons, Svec.find_cons]
      split_ifs with hj
      · rfl
      · exact ih hl'.2

theorem is_filter {l : List (Int × Int)} {a : Fin c → ℤ} (h : Is z l a) :
    Is True (l.filter fun e => e.2 ≠ 0) a := by
  refine ⟨⟨h.wf.sorted.filter _, fun e he => h.wf.range e (List.mem_of_mem_filter he)⟩, fun j => ?_,
    fun _ e he => by simpa using List.of_mem_filter he⟩
  rw [← h.val j]
  exact find_filter l h.wf.sorted _

/-- the svec `v` represents the vector `a` without explicit zeros -/
structure SRep (z : Prop) (v : SV) (a : Fin c → ℤ) : Prop where
  dim : v.d = c
  is : Is z v.entries a

theorem SRep.wf {v : SV} {a : Fin c → ℤ} (h : SRep z v a) : WF v := by
  have := h.is.wf
  obtain ⟨d, l⟩ := v
  obtain rfl : d = c := h.dim
  exact this

theorem SRep.val {v : SV} {a : Fin c → ℤ} (h : SRep z v a) (j : Fin c) :
    Svec.elem v (j + 1 : Int) = a j := h.is.val j

theorem SRep.of {v : SV} {a : Fin c → ℤ} (hd : v.d = c) (hw : WF v)
    (hv : ∀ j : Fin c, Svec.elem v (j + 1 : Int) = a j) (hz : z → NoZero v) : SRep z v a := by
  obtain ⟨d, l⟩ := v
  obtain rfl : d = c := hd
  exact ⟨rfl, hw, hv, hz⟩

theorem row_spec {m : SM} (hc : m.nco = c) {i : Nat} {l : List (Int × Int)} {a : Fin c → ℤ}
    (e : m.readRow i = some l) (hl : Is z l a) : ∃ v, row m (i + 1) = some v ∧ SRep True v a := by
  refine ⟨⟨c, l.filter fun e => e.2 ≠ 0⟩, ?_, rfl, is_filter hl⟩
  unfold row
  rw [if_neg (by omega), Nat.add_sub_cancel, e, Option.map_some]
  have := row_fold m.nco l [] (by simpa using hl.wf.sorted)
  simp only [List.nil_append] at this
  unfold Svec.zero
  rw [this, hc]

/-- `row(i)` -/
theorem C47_row {m : SM} {A : Matrix (Fin r) (Fin c) ℤ} (h : Rep z m A) (i : Fin r) :
    ∃ v, row m (i + 1) = some v ∧ SRep True v (A i) := by
  obtain ⟨l, e, hl⟩ := h.row i
  exact row_spec h.nco e hl

theorem find?_lower (l : List (Int × Int)) (hl : Svec.Sorted l) (j : Int) :
    (match l.find? fun e => j ≤ e.1 with
      | none => 0
      | some e => if e.1 ≠ j then 0 else e.2) = (Svec.find l j).getD 0 := by
  induction l with
  | nil => rfl
  | cons e l ih =>
    obtain ⟨k, x⟩ := e
    have hl' := (List.pairwise_cons.1 hl)
    rw [Svec.find_cons, List.find?_cons]
    by_cases hk : j ≤ k
    · simp only [hk, decide_true]
      by_cases hj : j = k
      · subst hj; simp
      · rw [if_pos (Ne.symm hj), if_neg hj,
          Svec.find_none_of _ _ (fun f hf hc => by
            have := hl'.1 f hf
            simp only at this
            omega)]
        rfl
    · simp only [hk, decide_false]
      rw [if_neg (by omega)]
      exact ih hl'.2

/-- `elem(i,j)`, the entry or 0 if an index is out of range -/
theorem C47_elem {m : SM} {A : Matrix (Fin r) (Fin c) ℤ} (h : Rep z m A) :
    (∀ (i : Fin r) (j : Fin c), elem m (i + 1 : Int) (j + 1 : Int) = some (A i j)) ∧
    ∀ i j : Int, ¬ (1 ≤ i ∧ i ≤ r ∧ 1 ≤ j ∧ j ≤ c) → elem m i j = some 0 := by
  constructor
  · intro i j
    obtain ⟨l, e, hl⟩ := h.row i
    unfold elem
    have h1 : m.nro = r := h.nro
    have h2 := i.2
    have h3 := j.2
    rw [if_pos (by rw [h1, h.nco]; omega)]
    have e1 : ((i : Int) + 1 - 1).toNat = i := by omega
    rw [e1, e, Option.map_some]
    exact congrArg some ((find?_lower l hl.wf.sorted _).trans (hl.val j))
  · intro i j hij
    unfold elem
    have h1 : m.nro = r := h.nro
    rw [if_neg (by rw [h1, h.nco]; omega)]

/-! ### setting rows -/

theorem realloc_spec {rw : Row} {l : List (Int × Int)} (h : rw.read = some l) (d : Nat) :
    ∃ r', realloc rw d = some r' ∧ r'.Fits d := by
  unfold realloc
  obtain ⟨h1, _⟩ := (read_iff _ _).1 h
  rw [h1]
  simp only
  by_cases hd : (l.length : Int) = d
  · rw [if_neg (by simpa using hd)]
    have : l.length = d := by omega
    exact ⟨rw, rfl, this ▸ read_fits h⟩
  · rw [if_pos hd]
    exact ⟨_, rfl, fits_new d⟩

/-- `set_row(i,d,pos,values)`: the values may be 0 -/
theorem C47_setRow {m : SM} {A : Matrix (Fin r) (Fin c) ℤ} (h : Rep z m A) (i : Fin r)
    {l : List (Int × Int)} {a : Fin c → ℤ} (hl : Is False l a) :
    ∃ m', setRow m i l = some m' ∧ Rep z m' (A.updateRow i a) := by
  have hi : (i : Nat) < m.rows.length := by rw [h.nro]; exact i.2
  obtain ⟨l0, e0, _⟩ := h.row' i hi
  obtain ⟨r1, e1, f1⟩ := realloc_spec e0 l.length
  have hlen : (l.filter fun e => e.2 ≠ 0).length ≤ l.length := List.length_filter_le _ _
  obtain ⟨r2, e2, l1, l2, _, _, g⟩ := fill_spec (l.filter fun e => e.2 ≠ 0) r1 0 (by
    rw [Nat.zero_add]; exact f1.mono hlen)
  obtain ⟨r3, e3, hr⟩ := setLen_spec (r := r2) (by
    have := f1.mono hlen
    simpa only [Row.Fits, l1, l2] using this) rfl g
  refine ⟨m.putRow i r3, ?_, putRow_spec h i hr ((is_filter hl).mono fun _ => trivial)⟩
  unfold setRow
  rw [List.getElem?_eq_getElem hi]
  simp only [e1, e2, e3, Option.map_some]

theorem setrow_spec {m : SM} {i : Nat} {l0 : List (Int × Int)} (h : m.readRow i = some l0) (v : SV) :
    ∃ r', setrow m (i + 1) v = some (m.putRow i r') ∧ r'.read = some v.entries := by
  have hi : i < m.rows.length := by
    by_contra hc
    unfold SM.readRow at h
    rw [List.getElem?_eq_none (by omega)] at h
    cases h
  rw [readRow_eq hi] at h
  obtain ⟨h1, _⟩ := (read_iff _ _).1 h
  unfold setrow
  rw [Nat.add_sub_cancel, List.getElem?_eq_getElem hi]
  simp only [h1]
  rw [if_neg (by omega)]
  by_cases hd : (l0.length : Int) = v.entries.length
  · rw [if_neg (by simpa using hd)]
    obtain ⟨r', e', hr⟩ := refill_spec (r := m.rows[i]) (l := v.entries) (by rw [h1, hd]) (by
      have : l0.length = v.entries.length := by omega
      exact this ▸ read_fits h)
    rw [e']
    exact ⟨_, rfl, hr⟩
  · rw [if_pos hd]
    obtain ⟨r1, e1, h2, f1⟩ := new_setLen v.entries.length
    rw [e1]
    simp only
    obtain ⟨r', e', hr⟩ := refill_spec h2 f1
    rw [e']
    exact ⟨_, rfl, hr⟩

/-- `setrow(i,svec)` -/
theorem C47_setrow {m : SM} {A : Matrix (Fin r) (Fin c) ℤ} (h : Rep z m A) (i : Fin r)
    {v : SV} {a : Fin c → ℤ} (hv : SRep z v a) :
    ∃ m', setrow m (i + 1) v = some m' ∧ Rep z m' (A.updateRow i a) := by
  obtain ⟨l0, e0, _⟩ := h.row i
  obtain ⟨r', e, hr⟩ := setrow_spec e0 v
  exact ⟨_, e, putRow_spec h i hr hv.is⟩

theorem readRow_putRow {m : SM} {i k : Nat} {r' : Row} (hi : i < m.rows.length) :
    (m.putRow i r').readRow k = if i = k then r'.read else m.readRow k := by
  unfold SM.readRow SM.putRow
  simp only
  rw [List.getElem?_set]
  by_cases h : i = k
  · rw [if_pos h, if_pos hi, if_pos h]; rfl
  · rw [if_neg h, if_neg h]

/-- setting the rows one after the other, where row `i` may be computed from the old row `i` -/
theorem setrows_spec {z' : Prop} {m : SM} (hm : m.rows.length = r) (hc : m.nco = c)
    (hrd : ∀ i : Fin r, ∃ l, m.readRow i = some l)
    (g : SM → Nat → Option SV) (B : Matrix (Fin r) (Fin c) ℤ)
    (h : ∀ (i : Fin r) (s : SM), s.nco = c → s.readRow i = m.readRow i →
      ∃ v, g s i = some v ∧ SRep z' v (B i)) :
    ∃ m', (List.range r).foldlM (fun (a : SM) i => (g a i).bind fun v => setrow a (i + 1) v) m = some m' ∧
      Rep z' m' B := by
  obtain ⟨m', e, h1, h2, h3, _⟩ := foldlM_range
    (fun (a : SM) i => (g a i).bind fun v => setrow a (i + 1) v)
    (fun k s => s.rows.length = r ∧ s.nco = c ∧
      (∀ i : Fin r, (i : Nat) < k → ∃ l, s.readRow i = some l ∧ Is z' l (B i)) ∧
      ∀ i : Fin r, k ≤ (i : Nat) → s.readRow i = m.readRow i) r m
    ⟨hm, hc, fun i hi => absurd hi (by omega), fun i _ => rfl⟩ (by
      rintro k hk s ⟨s1, s2, s3, s4⟩
      have e0 := s4 ⟨k, hk⟩ le_rfl
      obtain ⟨v, ev, hv⟩ := h ⟨k, hk⟩ s s2 e0
      obtain ⟨l0, el0⟩ := hrd ⟨k, hk⟩
      rw [el0] at e0
      obtain ⟨r', e', hr⟩ := setrow_spec e0 v
      have hks : k < s.rows.length := by omega
      simp only at ev e'
      rw [ev, Option.bind_some]
      refine ⟨_, e', by simp [SM.putRow, s1], s2, fun i hi => ?_, fun i hi => ?_⟩
      · rw [readRow_putRow hks]
        by_cases hik : k = (i : Nat)
        · rw [if_pos hik]
          obtain rfl : i = ⟨k, hk⟩ := Fin.ext hik.symm
          exact ⟨_, hr, hv.is⟩
        · rw [if_neg hik]
          exact s3 i (by omega)
      · rw [readRow_putRow hks, if_neg (by omega)]
        exact s4 i (by omega))
  exact ⟨m', e, h1, h2, fun i => h3 i i.2⟩

/-- `setrow(i,vec)` is right when the number of non-zero entries does not change.  Missing: any other
call, where it fails (`C47_setrowVec_fails`). -/
theorem C47_setrowVec_partial {m : SM} {A : Matrix (Fin r) (Fin c) ℤ} (h : Rep z m A) (i : Fin r)
    (v : List Int) (hv : v.length = c) {l : List (Int × Int)} (hl : m.readRow i = some l)
    (hn : (v.filter (· ≠ 0)).length = l.length) :
    ∃ m', setrowVec m (i + 1) v = some m' ∧ Rep z m' (A.updateRow i fun j => v.getD j 0) := by
  have hi : (i : Nat) < m.rows.length := by rw [h.nro]; exact i.2
  rw [readRow_eq hi] at hl
  obtain ⟨h1, _⟩ := (read_iff _ _).1 hl
  have hlen : ∀ (v : List Int) k, (nonzeros k v).length = (v.filter (· ≠ 0)).length := by
    intro v
    induction v with
    | nil => intro k; rfl
    | cons x v ih =>
      intro k
      by_cases hx : x = 0
      · rw [List.filter_cons_of_neg (by simp [hx])]
        simp only [nonzeros]; rw [if_neg (by simpa using hx)]; exact ih _
      · rw [List.filter_cons_of_pos (by simp [hx])]
        simp only [nonzeros]; rw [if_pos hx, List.length_cons, List.length_cons, ih]
  have e : (nonzeros 1 v).length = l.length := by rw [hlen, hn]
  unfold setrowVec
  rw [Nat.add_sub_cancel, List.getElem?_eq_getElem hi]
  simp only [h1]
  rw [if_neg (by omega), if_neg (by rw [e]; simp)]
  obtain ⟨r', e', hr⟩ := refill_spec (r := m.rows[(i : Nat)]) (l := nonzeros 1 v) (by rw [h1, e])
    (by rw [e]; exact read_fits hl)
  rw [e']
  exact ⟨_, rfl, putRow_spec h i hr ((is_nonzeros v _ hv fun _ => rfl).mono fun _ => trivial)⟩

theorem fold_none {α σ : Type} (f : σ → α → Option σ) (l : List α) (a : α) (s : σ)
    (h : ∀ s, f s a = none) : (l ++ [a]).foldlM f s = none := by
  rw [List.foldlM_append]
  cases hs : List.foldlM f s l with
  | none => rfl
  | some s' => exact (by rw [Option.bind_eq_bind, Option.bind_some, List.foldlM_cons, h]; rfl)

theorem fold_inv {α σ : Type} (P : σ → Prop) (f : σ → α → Option σ) (l : List α) (s s' : σ) (hs : P s)
    (h : ∀ s a s', P s → f s a = some s' → P s') (e : l.foldlM f s = some s') : P s' := by
  induction l generalizing s with
  | nil => cases e; exact hs
  | cons a l ih =>
    rw [List.foldlM_cons] at e
    cases h1 : f s a with
    | none => rw [h1] at e; cases e
    | some s1 => rw [h1] at e; exact ih s1 (h s a s1 hs h1) e

/-- `setrow(i,vec)` writes outside the new array whenever the number of non-zero entries of the row
changes to a positive number -/
theorem C47_setrowVec_fails {m : SM} {A : Matrix (Fin r) (Fin c) ℤ} (h : Rep z m A) (i : Fin r)
    (v : List Int) {l : List (Int × Int)} (hl : m.readRow i = some l)
    (hn : (nonzeros 1 v).length ≠ l.length) (h0 : nonzeros 1 v ≠ []) :
    setrowVec m (i + 1) v = none := by
  have hi : (i : Nat) < m.rows.length := by rw [h.nro]; exact i.2
  rw [readRow_eq hi] at hl
  obtain ⟨h1, _⟩ := (read_iff _ _).1 hl
  unfold setrowVec
  rw [Nat.add_sub_cancel, List.getElem?_eq_getElem hi]
  simp only [h1]
  rw [if_neg (by omega), if_pos (by omega)]
  cases e : (Row.new (nonzeros 1 v).length).setLen (nonzeros 1 v).length with
  | none => rfl
  | some r1 =>
    simp only
    rw [Option.map_eq_none_iff]
    generalize hw : nonzeros 1 v = w at *
    obtain ⟨w', a, rfl⟩ : ∃ w' a, w = w' ++ [a] := ⟨_, _, (List.dropLast_append_getLast h0).symm⟩
    have hlen : r1.col.length = w'.length + 2 := by
      unfold Row.setLen at e
      rw [Option.map_eq_some_iff] at e
      obtain ⟨col, hc, rfl⟩ := e
      simp only [length_put hc]
      simp [Row.new, Buf.new]
    rw [List.zipIdx_append, List.foldlM_append]
    cases hs : List.foldlM skewStep r1 (w'.zipIdx 0) with
    | none => rfl
    | some r2 =>
      have hlen2 : r2.col.length = w'.length + 2 := by
        refine fold_inv (fun r : Row => r.col.length = w'.length + 2) _ _ r1 r2 hlen ?_ hs
        intro s a s' hs e
        unfold skewStep at e
        split at e
        · rename_i col val hc hv
          cases e
          simp only
          rw [length_put hc]; exact hs
        · cases e
      rw [Option.bind_eq_bind, Option.bind_some]
      simp only [List.zipIdx_cons, List.zipIdx_nil, List.foldlM_cons, Nat.zero_add]
      have : r2.col.put (w'.length + 2) a.1 = none := by
        unfold Buf.put
        rw [if_neg (by omega)]
      have e2 : skewStep r2 (a, w'.length) = none := by
        unfold skewStep
        rw [this]
      rw [e2]
      rfl

/-- a case: the zero 1×1 matrix, row 1 set to (5) -/
example : setrowVec (new 1 1) 1 [5] = none := by decide

/-- `select_rows` -/
theorem C47_selectRows {m : SM} {A : Matrix (Fin r) (Fin c) ℤ} (h : Rep z m A) (rows : List (Fin r)) :
    ∃ m', selectRows m (rows.map fun i : Fin r => (i : Nat) + 1) = some m' ∧
      Rep True m' (Matrix.of fun k : Fin rows.length => A (rows.get k)) := by
  unfold selectRows
  have H := foldlM_spec (fun (ans : SM) (e : Nat × Nat) =>
    if e.1 = 0 then none
    else (m.readRow (e.1 - 1)).bind fun l => setRow ans e.2 l)
    (fun k s => Rep True s (Matrix.of fun (i : Fin rows.length) =>
      if (i : Nat) < k then A (rows.get i) else (0 : Fin c → ℤ)))
    (rows.map fun i : Fin r => (i : Nat) + 1).zipIdx 0 (new rows.length c)
    (by
      have e : (Matrix.of fun (i : Fin rows.length) =>
        if (i : Nat) < 0 then A (rows.get i) else (0 : Fin c → ℤ)) = 0 := by
        ext i j; simp
      rw [e]; exact C47_new _ _)
    (by
      intro k hk s hs
      have hk' : k < rows.length := by simpa using hk
      rw [List.getElem_zipIdx]
      simp only [List.getElem_map, Nat.zero_add] at hs ⊢
      rw [if_neg (by omega), Nat.add_sub_cancel]
      obtain ⟨l, e, hl⟩ := h.row rows[k]
      rw [e, Option.bind_some]
      obtain ⟨s', e', hs'⟩ := C47_setRow hs ⟨k, hk'⟩ (hl.mono (z' := False) False.elim)
      refine ⟨s', e', ?_⟩
      convert hs' using 1
      ext i j
      rw [Matrix.updateRow_apply]
      simp only [Matrix.of_apply]
      by_cases hik : i = ⟨k, hk'⟩
      · rw [if_pos hik, hik]; simp
      · rw [if_neg hik]
        have : (i : Nat) ≠ k := fun hc => hik (Fin.ext hc)
        by_cases h1 : (i : Nat) < k
        · rw [if_pos h1, if_pos (by omega)]
        · rw [if_neg h1, if_neg (by omega)])
  obtain ⟨s', e, hs⟩ := H
  refine ⟨s', ?_, ?_⟩
  · rw [← e, List.length_map, h.nco]
  · have e2 : (Matrix.of fun (i : Fin rows.length) =>
        if (i : Nat) < 0 + (rows.map fun i : Fin r => (i : Nat) + 1).zipIdx.length then A (rows.get i)
          else (0 : Fin c → ℤ)) = Matrix.of fun k : Fin rows.length => A (rows.get k) := by
      ext i j
      have := i.2
      simp
    rw [e2] at hs
    exact hs

end Eclib.Smat.Props
