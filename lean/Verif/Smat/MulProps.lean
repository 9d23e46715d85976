import Verif.Smat.ArithProps

/-!
# Property theorems for the sparse matrices (C47): products
-/

namespace Eclib.Smat.Props

open Svec (T SV smod sxmod sxmodmul sdiv)
open Svec.Props (WF NoZero Red RedVec)

variable {z z' : Prop} {r c k : Nat}

/-! ### smat*mat -/

theorem dotCol_spec (b : Mat.M) (j : Nat) (l : List (Int × Int)) :
    (∀ e ∈ l, 1 ≤ e.1 ∧ e.1 ≤ (b.nr : Int)) →
    dotCol l b j = some ((l.map fun e => e.2 * b.get (e.1 - 1).toNat j).sum) := by
  have key : ∀ (l : List (Int × Int)) (a : Int), (∀ e ∈ l, 1 ≤ e.1 ∧ e.1 ≤ (b.nr : Int)) →
      l.foldlM (fun (ans : Int) e =>
        if 1 ≤ e.1 ∧ e.1 ≤ (b.nr : Int) then some (ans + e.2 * b.get (e.1 - 1).toNat j) else none) a =
      some (a + (l.map fun e => e.2 * b.get (e.1 - 1).toNat j).sum) := by
    intro l
    induction l with
    | nil => intro a _; simp
    | cons e l ih =>
      intro a h
      rw [List.foldlM_cons, if_pos (h e List.mem_cons_self), Option.bind_eq_bind, Option.bind_some,
        ih _ (fun e he => h e (List.mem_cons_of_mem _ he)), List.map_cons, List.sum_cons, add_assoc]
  intro h
  unfold dotCol
  rw [key l 0 h, zero_add]

/-- `smat*mat` -/
theorem C47_mulMat {m : SM} {b : Mat.M} {A : Matrix (Fin r) (Fin c) ℤ} {B : Matrix (Fin c) (Fin k) ℤ}
    (hA : Rep z m A) (hB : DRep b B) : ∃ m', mulMat m b = some m' ∧ DRep m' (A * B) := by
  unfold mulMat
  rw [if_neg (by rw [hA.nco, hB.nr]; simp)]
  obtain ⟨rows, e, hl, hp⟩ := mapM_spec
    (fun (r : Row) => r.read.bind fun l => (List.range b.nc).mapM (dotCol l b))
    (fun i v => ∀ hi : i < r, v.length = k ∧ ∀ j : Fin k, v.getD j 0 = (A * B) ⟨i, hi⟩ j) m.rows 0 (by
      intro i hi
      obtain ⟨l, e, hl⟩ := hA.row' i hi
      obtain ⟨v, ev, hv1, hv2⟩ := mapM_spec (dotCol l b)
        (fun j x => ∀ hj : j < k, x = (A * B) ⟨i, hA.nro ▸ hi⟩ ⟨j, hj⟩) (List.range b.nc) 0 (by
          intro j hj
          rw [List.getElem_range, Nat.zero_add]
          rw [dotCol_spec b j l (by intro e he; have := hl.wf.range e he; rw [hB.nr]; exact this)]
          refine ⟨_, rfl, fun hj => ?_⟩
          rw [sum_entries' hl (fun x => b.get (x - 1).toNat j), Matrix.mul_apply]
          refine Finset.sum_congr rfl fun t _ => ?_
          rw [← hB.get t ⟨j, hj⟩]
          congr 2
          simp)
      have hlen : v.length = k := by rw [hv1, List.length_range, hB.nc]
      refine ⟨v, by rw [e, Option.bind_some]; exact ev, fun hi' => ⟨hlen, fun j => ?_⟩⟩
      rw [List.getD_eq_getElem v _ (by rw [hlen]; exact j.2)]
      have := hv2 j (by rw [hlen]; exact j.2) (by rw [Nat.zero_add]; exact j.2)
      simpa using this)
  have hlen : rows.length = r := by rw [hl, hA.nro]
  refine ⟨⟨b.nc, rows⟩, by rw [e]; rfl, hlen, hB.nc, fun v hv => ?_, fun i j => ?_⟩
  · obtain ⟨i, hi, rfl⟩ := List.getElem_of_mem hv
    simp only at hi
    exact (hp i hi (by omega)).1
  · have := (hp i (by rw [hlen]; exact i.2) (by rw [Nat.zero_add]; exact i.2)).2 j
    simp only [Mat.M.get]
    rw [List.getD_eq_getElem rows _ (by rw [hlen]; exact i.2), this]
    simp

/-! ### smat*svec, smat*vec -/

theorem dot_spec {z1 z2 : Prop} {v w : SV} {a b : Fin c → ℤ} (hv : SRep z1 v a) (hw : SRep z2 w b) :
    Svec.dot v w = ∑ j, a j * b j := by
  rw [Svec.Props.C15_dot v w hv.wf hw.wf, hv.dim, sum_Icc]
  exact Finset.sum_congr rfl fun j _ => by rw [hv.val, hw.val]

/-- the vector `fun i => if i < k then f i else 0` with entry `k` set -/
theorem srep_step {s : SV} {f : Fin r → ℤ} {k : Nat} (hk : k < r)
    (h : SRep True s (fun i : Fin r => if (i : Nat) < k then f i else 0)) :
    SRep True (Svec.set s (k + 1 : Int) (f ⟨k, hk⟩)) (fun i : Fin r => if (i : Nat) < k + 1 then f i else 0) := by
  have hcase : ∀ i : Fin r, (i : Nat) < k + 1 → ¬ (i : Nat) < k → i = ⟨k, hk⟩ := fun i h1 h2 =>
    Fin.ext (by simp only; omega)
  by_cases h0 : f ⟨k, hk⟩ = 0
  · have e : Svec.set s (k + 1 : Int) (f ⟨k, hk⟩) = s := by simp [Svec.set, h0]
    rw [e]
    refine ⟨h.dim, h.is.congr fun i => ?_⟩
    by_cases h1 : (i : Nat) < k
    · rw [if_pos h1, if_pos (by omega)]
    · rw [if_neg h1]
      by_cases h2 : (i : Nat) < k + 1
      · rw [if_pos h2, hcase i h2 h1, h0]
      · rw [if_neg h2]
  · obtain ⟨w1, w2⟩ := Svec.Props.C15_set s h.wf (k + 1 : Int) (f ⟨k, hk⟩) (by rw [h.dim]; omega) h0
    have hd : (Svec.set s (k + 1 : Int) (f ⟨k, hk⟩)).d = s.d := by unfold Svec.set; split_ifs <;> rfl
    refine SRep.of (hd.trans h.dim) w1 (fun i => ?_) (fun _ => ?_)
    · rw [w2, h.val i]
      by_cases h1 : (i : Nat) < k
      · rw [if_neg (by omega), if_pos h1, if_pos (by omega)]
      · by_cases h2 : (i : Nat) < k + 1
        · have := hcase i h2 h1
          subst this
          rw [if_pos rfl, if_pos h2]
        · rw [if_neg (by omega), if_neg h1, if_neg h2]
    · have : Svec.set s (k + 1 : Int) (f ⟨k, hk⟩) =
          { s with entries := Svec.put s.entries (k + 1 : Int) (f ⟨k, hk⟩) } := by
        unfold Svec.set; rw [if_pos h0]
      rw [this]
      exact Svec.Props.noZero_put s _ _ (h.is.nz trivial) h0

theorem srep_zero (r : Nat) : SRep True (Svec.zero r) (0 : Fin r → ℤ) :=
  ⟨rfl, ⟨List.Pairwise.nil, by simp [Svec.zero]⟩, fun _ => rfl, by simp [Svec.zero]⟩

/-- building an svec entry by entry -/
theorem build_spec (g : Nat → Option Int) (f : Fin r → ℤ) (h : ∀ i : Fin r, g i = some (f i)) :
    ∃ v, (List.range r).foldlM (fun (w : SV) i => (g i).map fun x => Svec.set w (i + 1) x) (Svec.zero r) =
      some v ∧ SRep True v f := by
  obtain ⟨v, e, hv⟩ := foldlM_range (fun (w : SV) i => (g i).map fun x => Svec.set w (i + 1) x)
    (fun k s => SRep True s (fun i : Fin r => if (i : Nat) < k then f i else 0)) r (Svec.zero r)
    (by
      have := srep_zero r
      refine ⟨this.dim, this.is.congr fun i => ?_⟩
      simp)
    (fun k hk s hs => ⟨_, by rw [h ⟨k, hk⟩]; rfl, srep_step hk hs⟩)
  refine ⟨v, e, hv.dim, hv.is.congr fun i => ?_⟩
  rw [if_pos i.2]

/-- `smat*svec` -/
theorem C47_mulSvec {m : SM} {v : SV} {A : Matrix (Fin r) (Fin c) ℤ} {a : Fin c → ℤ}
    (hA : Rep z m A) (hv : SRep z' v a) : ∃ w, mulSvec m v = some w ∧ SRep True w (A.mulVec a) := by
  obtain ⟨w, e, hw⟩ := build_spec (fun i => (row m (i + 1)).map fun w => Svec.dot w v) (A.mulVec a) (by
    intro i
    obtain ⟨u, eu, hu⟩ := C47_row hA i
    rw [eu, Option.map_some, dot_spec hu hv]
    rfl)
  refine ⟨w, ?_, hw⟩
  unfold mulSvec
  have hn : m.nro = r := hA.nro
  rw [if_neg (by rw [hA.nco, hv.dim]; simp), hn, ← e]
  congr 1
  funext s i
  cases row m (i + 1) with
  | none => rfl
  | some u => simp only [Option.map_some]; rfl

/-- a list as a vector -/
def vecOf (v : List Int) (c : Nat) : Fin c → ℤ := fun j => v.getD j 0

/-- `smat*vec` -/
theorem C47_mulVec {m : SM} {v : List Int} {A : Matrix (Fin r) (Fin c) ℤ} (hA : Rep z m A)
    (hv : v.length = c) : ∃ w, mulVec m v = some w ∧ w.length = r ∧
      ∀ i : Fin r, w.getD i 0 = A.mulVec (vecOf v c) i := by
  unfold mulVec
  have hn : m.nro = r := hA.nro
  rw [if_neg (by rw [hA.nco, hv]; simp), hn]
  obtain ⟨w, e, hl, hp⟩ := mapM_spec (fun i => (row m (i + 1)).bind fun w => Svec.dotVec w v)
    (fun i x => ∀ hi : i < r, x = A.mulVec (vecOf v c) ⟨i, hi⟩) (List.range r) 0 (by
      intro i hi
      rw [List.getElem_range]
      obtain ⟨u, eu, hu⟩ := C47_row hA ⟨i, by simpa using hi⟩
      simp only at eu
      rw [eu, Option.bind_some, Svec.Props.C15_dotVec u v hu.wf (by rw [hu.dim, hv])]
      refine ⟨_, rfl, fun hi' => ?_⟩
      rw [hu.dim, sum_Icc]
      refine Finset.sum_congr rfl fun j _ => ?_
      rw [hu.val]
      simp [vecOf])
  have hlen : w.length = r := by rw [hl, List.length_range]
  refine ⟨w, e, hlen, fun i => ?_⟩
  rw [List.getD_eq_getElem w _ (by rw [hlen]; exact i.2)]
  have := hp i (by rw [hlen]; exact i.2) (by rw [Nat.zero_add]; exact i.2)
  simpa using this

/-- `mult_mod_p(smat,svec,p)` -/
theorem C47_mulSvecModP (t : T) {m : SM} {v : SV} {A : Matrix (Fin r) (Fin c) ℤ} {a : Fin c → ℤ}
    (p : Int) (hp : p ≠ 0) (hA : Rep z m A) (hv : SRep z' v a) (hm : RedMat t p m) (hrv : RedVec t p v) :
    ∃ w b, mulSvecModP t m v p = some w ∧ SRep True w (b : Fin r → ℤ) ∧
      ∀ i, Spec.Cong p (b i) (A.mulVec a i) := by
  have hrow : ∀ i : Fin r, ∃ u, row m (i + 1) = some u ∧ SRep True u (A i) ∧ RedVec t p u := by
    intro i
    obtain ⟨l, e, hl⟩ := hA.row i
    obtain ⟨u, eu, hu⟩ := C47_row hA i
    refine ⟨u, eu, hu, ?_⟩
    unfold row at eu
    rw [if_neg (by omega), Nat.add_sub_cancel, e, Option.map_some, Option.some.injEq] at eu
    have := row_fold m.nco l [] (by simpa using hl.wf.sorted)
    simp only [List.nil_append] at this
    unfold Svec.zero at eu
    rw [this] at eu
    rw [← eu]
    exact fun f hf => hm i l e f (List.mem_of_mem_filter hf)
  choose u hu1 hu2 hu3 using hrow
  obtain ⟨w, e, hw⟩ := build_spec (fun i => (row m (i + 1)).map fun w => Svec.dotModP t w v p)
    (fun i => Svec.dotModP t (u i) v p) (by
      intro i
      rw [hu1 i]; rfl)
  refine ⟨w, _, ?_, hw, fun i => ?_⟩
  · unfold mulSvecModP
    have hn : m.nro = r := hA.nro
    rw [if_neg (by rw [hA.nco, hv.dim]; simp), hn, ← e]
    congr 1
    funext s i
    cases row m (i + 1) <;> rfl
  · have := Svec.Props.C15_dotModP t (u i) v p (hu2 i).wf hv.wf hp (hu3 i) hrv
    rw [(hu2 i).dim, sum_Icc] at this
    have e2 : A.mulVec a i = ∑ j : Fin c, Svec.elem (u i) (j + 1 : Int) * Svec.elem v (j + 1 : Int) := by
      show (∑ j : Fin c, A i j * a j) = _
      exact Finset.sum_congr rfl fun j _ => by rw [(hu2 i).val, hv.val]
    rw [e2]; exact this

/-! ### svec*smat, smat*smat -/

/-- row number `i` (from 1), 0 if there is none -/
def rowOf (A : Matrix (Fin r) (Fin c) ℤ) (i : Int) : Fin c → ℤ :=
  if h : 1 ≤ i ∧ i ≤ (r : Int) then A ⟨(i - 1).toNat, by omega⟩ else 0

theorem rowOf_fin (A : Matrix (Fin r) (Fin c) ℤ) (i : Fin r) : rowOf A (i + 1 : Int) = A i := by
  unfold rowOf
  have := i.2
  rw [dif_pos (by omega)]
  congr 1
  apply Fin.ext
  simp

theorem srep_iadd {v w : SV} {a b : Fin c → ℤ} (hv : SRep z v a) (hw : SRep z w b) :
    SRep z (Svec.iadd v w) (a + b) := by
  have hd : v.d = w.d := hv.dim.trans hw.dim.symm
  obtain ⟨g1, g2, g3⟩ := Svec.Props.C15_iadd v w hv.wf hw.wf hd
  refine SRep.of (g2.trans hv.dim) g1 (fun j => by rw [g3, hv.val, hw.val]; rfl) fun hz => ?_
  have e : Svec.iadd v w = ⟨v.d, (Svec.merge id (· + ·) [] v.entries w.entries [] []).1⟩ := by
    unfold Svec.iadd
    rw [if_neg (by simpa using hd)]
  rw [e]
  exact Svec.Props.noZero_merge v w _ _ hd hv.wf hw.wf (hv.is.nz hz) (hw.is.nz hz)

theorem srep_imul {v : SV} {a : Fin c → ℤ} (hv : SRep z v a) (s : Int) (hs : z → s ≠ 0) :
    SRep z (Svec.imul v s) (s • a) := by
  obtain ⟨g1, g2, g3⟩ := Svec.Props.C15_imul v hv.wf s
  refine SRep.of (g2.trans hv.dim) g1 (fun j => ?_) fun hz =>
    Svec.Props.noZero_imul v s (hv.is.nz hz) (hs hz)
  rw [g3, hv.val, Pi.smul_apply, smul_eq_mul, mul_comm]

/-- `svec*smat` -/
theorem C47_svecMul {m : SM} {v : SV} {A : Matrix (Fin r) (Fin c) ℤ} {a : Fin r → ℤ}
    (hA : Rep z' m A) (hv : SRep z v a) : ∃ w, svecMul v m = some w ∧ SRep z w (Matrix.vecMul a A) := by
  have key : ∀ (l : List (Int × Int)) (s : SV) (b : Fin c → ℤ), SRep z s b →
      (∀ e ∈ l, 1 ≤ e.1 ∧ e.1 ≤ (r : Int)) → (z → ∀ e ∈ l, e.2 ≠ 0) →
      ∃ w, l.foldlM (fun (prod : SV) e =>
        (row m e.1.toNat).map fun w => Svec.iadd prod (Svec.imul w e.2)) s = some w ∧
        SRep z w (fun j => b j + (l.map fun e => e.2 * rowOf A e.1 j).sum) := by
    intro l
    induction l with
    | nil => intro s b hs _ _; exact ⟨s, rfl, hs.dim, hs.is.congr fun j => by simp⟩
    | cons e l ih =>
      intro s b hs hr hz
      have he := hr e List.mem_cons_self
      obtain ⟨u, eu, hu⟩ := C47_row hA ⟨(e.1 - 1).toNat, by omega⟩
      have e1 : (e.1 - 1).toNat + 1 = e.1.toNat := by omega
      simp only [e1] at eu
      have hu' : SRep z u (rowOf A e.1) := by
        unfold rowOf
        rw [dif_pos he]
        exact ⟨hu.dim, hu.is.mono fun _ => trivial⟩
      obtain ⟨w, ew, hw⟩ := ih (Svec.iadd s (Svec.imul u e.2)) _
        (srep_iadd hs (srep_imul hu' e.2 (fun h => hz h e List.mem_cons_self)))
        (fun e he => hr e (List.mem_cons_of_mem _ he)) (fun h e he => hz h e (List.mem_cons_of_mem _ he))
      refine ⟨w, ?_, hw.dim, hw.is.congr fun j => ?_⟩
      · rw [List.foldlM_cons, eu]
        exact ew
      · simp only [List.map_cons, List.sum_cons, Pi.add_apply, Pi.smul_apply, smul_eq_mul]
        ring
  unfold svecMul
  have hn : m.nro = r := hA.nro
  rw [if_neg (by rw [hn, hv.dim]; simp)]
  obtain ⟨w, e, hw⟩ := key v.entries (Svec.zero m.nco) 0
    (by
      have := srep_zero c
      rw [hA.nco]
      exact ⟨this.dim, this.is.mono fun _ => trivial⟩)
    (by have := hv.is.wf.range; exact this) hv.is.nz
  refine ⟨w, e, hw.dim, hw.is.congr fun j => ?_⟩
  rw [sum_entries' hv.is (fun i => rowOf A i j)]
  simp only [Pi.zero_apply, zero_add]
  refine Finset.sum_congr rfl fun i _ => ?_
  rw [rowOf_fin]

/-- `smat*smat` -/
theorem C47_mul {a b : SM} {A : Matrix (Fin r) (Fin c) ℤ} {B : Matrix (Fin c) (Fin k) ℤ}
    (hA : Rep z a A) (hB : Rep z' b B) : ∃ m, mul a b = some m ∧ Rep True m (A * B) := by
  unfold mul
  have hn : a.nro = r := hA.nro
  have hnb : b.nro = c := hB.nro
  rw [if_neg (by rw [hA.nco, hnb]; simp), hn, hB.nco]
  have h0 := C47_new r k
  obtain ⟨m, e, hm⟩ := setrows_spec (z' := True) h0.nro h0.nco
    (fun i => by obtain ⟨l, e, _⟩ := h0.row i; exact ⟨l, e⟩)
    (fun _ i => (row a (i + 1)).bind fun v => svecMul v b) (A * B) (by
      intro i s _ _
      obtain ⟨v, ev, hv⟩ := C47_row hA i
      obtain ⟨w, ew, hw⟩ := C47_svecMul hB hv
      refine ⟨w, by rw [ev]; exact ew, hw.dim, hw.is.congr fun j => ?_⟩
      rfl)
  refine ⟨m, ?_, hm⟩
  rw [← e]
  congr 1
  funext s i
  cases row a (i + 1) <;> rfl

/-! ### svec*smat and smat*smat modulo `p` -/

theorem addModp_spec (t : T) (p : Int) (hp : p ≠ 0) (w : List Int) (i : Int) (x : Int)
    (hi : 1 ≤ i ∧ i ≤ (w.length : Int)) :
    ∃ w', addModpVec t w i x p = some w' ∧ w'.length = w.length ∧
      (∀ j, j < w.length → Spec.Cong p (w'.getD j 0) (w.getD j 0 + if (j : Int) + 1 = i then x else 0)) ∧
      ((∀ y ∈ w, Least p y) → ∀ y ∈ w', Least p y) := by
  unfold addModpVec
  rw [if_pos hi]
  refine ⟨_, rfl, by simp, fun j hj => ?_, fun hw y hy => ?_⟩
  rotate_left
  · rcases List.mem_or_eq_of_mem_set hy with h | rfl
    · exact hw y h
    · exact (Svec.Props.smod_spec t _ p hp).2
  rw [List.getD_eq_getElem _ _ (by simpa using hj), List.getElem_set]
  by_cases hij : (i - 1).toNat = j
  · rw [if_pos hij, if_pos (by omega), hij]
    exact (Svec.Props.smod_spec t _ p hp).1
  · rw [if_neg hij, if_neg (by omega), add_zero, List.getD_eq_getElem _ _ hj]
    exact Svec.Props.cong_refl _ _

theorem addRow_spec (t : T) (p : Int) (hp : p ≠ 0) (x : Int) (hx : Red t p x) (l : List (Int × Int)) :
    ∀ w : List Int, Svec.Sorted l → (∀ e ∈ l, 1 ≤ e.1 ∧ e.1 ≤ (w.length : Int)) →
      (∀ e ∈ l, Red t p e.2) →
    ∃ w', l.foldlM (fun (prod : List Int) f => addModpVec t prod f.1 (sxmodmul t x f.2 p) p) w = some w' ∧
      w'.length = w.length ∧
      (∀ j : Nat, j < w.length → Spec.Cong p (w'.getD j 0) (w.getD j 0 + x * at' l (j + 1 : Int))) ∧
      ((∀ y ∈ w, Least p y) → ∀ y ∈ w', Least p y) := by
  induction l with
  | nil =>
    intro w _ _ _
    exact ⟨w, rfl, rfl, fun j _ => by rw [at_nil]; simp [Svec.Props.cong_refl], id⟩
  | cons e l ih =>
    intro w hs hr hred
    obtain ⟨i, y⟩ := e
    obtain ⟨w1, e1, len1, h1, b1⟩ := addModp_spec t p hp w i (sxmodmul t x y p) (hr (i, y) List.mem_cons_self)
    obtain ⟨w2, e2, len2, h2, b2⟩ := ih w1 (List.pairwise_cons.1 hs).2
      (fun e he => by rw [len1]; exact hr e (List.mem_cons_of_mem _ he))
      (fun e he => hred e (List.mem_cons_of_mem _ he))
    refine ⟨w2, by rw [List.foldlM_cons, e1]; exact e2, len2.trans len1, fun j hj => ?_, fun h => b2 (b1 h)⟩
    refine Svec.Props.cong_trans (h2 j (by omega)) ?_
    have hxy := Svec.Props.sxmodmul_cong t x y p hx (hred (i, y) List.mem_cons_self)
    rw [at_cons]
    by_cases hij : (j : Int) + 1 = i
    · rw [if_pos hij, at_lt hs (le_of_eq hij), mul_zero, add_zero]
      refine Svec.Props.cong_trans (h1 j hj) ?_
      rw [if_pos hij]
      exact Svec.Props.cong_add (Svec.Props.cong_refl _ _) hxy
    · rw [if_neg hij]
      refine Svec.Props.cong_add ?_ (Svec.Props.cong_refl _ _)
      have := h1 j hj
      rwa [if_neg hij, add_zero] at this

/-- `mult_mod_p(svec,smat,p)` -/
theorem C47_svecMulModP (t : T) {m : SM} {v : SV} {A : Matrix (Fin r) (Fin c) ℤ} {a : Fin r → ℤ}
    (p : Int) (hp : p ≠ 0) (hA : Rep z' m A) (hv : SRep z v a) (hm : RedMat t p m) (hrv : RedVec t p v) :
    ∃ w b, svecMulModP t v m p = some w ∧ SRep True w (b : Fin c → ℤ) ∧
      ∀ j, Spec.Cong p (b j) (Matrix.vecMul a A j) ∧ Least p (b j) := by
  have key : ∀ (l : List (Int × Int)) (s : List Int), s.length = c →
      (∀ e ∈ l, 1 ≤ e.1 ∧ e.1 ≤ (r : Int)) → (∀ e ∈ l, Red t p e.2) →
      ∃ w, l.foldlM (fun (prod : List Int) e =>
        if e.1 < 1 then none
        else (m.readRow (e.1 - 1).toNat).bind fun l =>
          l.foldlM (fun (prod : List Int) f => addModpVec t prod f.1 (sxmodmul t e.2 f.2 p) p) prod) s =
          some w ∧ w.length = c ∧
        (∀ j : Fin c, Spec.Cong p (w.getD j 0) (s.getD j 0 + (l.map fun e => e.2 * rowOf A e.1 j).sum)) ∧
        ((∀ y ∈ s, Least p y) → ∀ y ∈ w, Least p y) := by
    intro l
    induction l with
    | nil => intro s hs _ _; exact ⟨s, rfl, hs, fun j => by simp [Svec.Props.cong_refl], id⟩
    | cons e l ih =>
      intro s hs hr hz
      have he := hr e List.mem_cons_self
      obtain ⟨l1, el1, hl1⟩ := hA.row ⟨(e.1 - 1).toNat, by omega⟩
      obtain ⟨w1, e1, len1, h1, b1⟩ := addRow_spec t p hp e.2 (hz e List.mem_cons_self) l1 s hl1.wf.sorted
        (by rw [hs]; exact hl1.wf.range) (hm _ l1 el1)
      obtain ⟨w, ew, hw, h2, b2⟩ := ih w1 (len1.trans hs)
        (fun e he => hr e (List.mem_cons_of_mem _ he)) (fun e he => hz e (List.mem_cons_of_mem _ he))
      refine ⟨w, ?_, hw, fun j => ?_, fun h => b2 (b1 h)⟩
      · rw [List.foldlM_cons, if_neg (by omega)]
        simp only at el1
        rw [el1, Option.bind_some, e1]
        exact ew
      · refine Svec.Props.cong_trans (h2 j) ?_
        rw [List.map_cons, List.sum_cons, ← add_assoc]
        refine Svec.Props.cong_add ?_ (Svec.Props.cong_refl _ _)
        have := h1 j (by rw [hs]; exact j.2)
        have e3 : at' l1 ((j : Nat) + 1 : Int) = rowOf A e.1 j := by
          unfold rowOf
          rw [dif_pos he]
          exact hl1.val j
        rwa [e3] at this
  unfold svecMulModP
  have hn : m.nro = r := hA.nro
  rw [if_neg (by rw [hn, hv.dim]; simp)]
  obtain ⟨w, e, hw, h, hb⟩ := key v.entries (List.replicate m.nco 0) (by simp [hA.nco])
    (by have := hv.is.wf.range; exact this) hrv
  obtain ⟨g1, g2, g3, g4⟩ := Svec.Props.C15_ofVec w
  refine ⟨Svec.ofVec w, fun j => w.getD j 0, by rw [e]; rfl, SRep.of (g3.trans hw) g1 (fun j => ?_) fun _ => g2,
    fun j => ⟨?_, ?_⟩⟩
  · exact g4 j (by rw [hw]; exact j.2)
  · have := h j
    rw [sum_entries' hv.is (fun i => rowOf A i j)] at this
    have e0 : (List.replicate m.nco (0 : Int)).getD (j : Nat) 0 = 0 := by simp
    rw [e0, zero_add] at this
    have e2 : Matrix.vecMul a A j = ∑ i : Fin r, a i * rowOf A (i + 1 : Int) j := by
      show (∑ i : Fin r, a i * A i j) = _
      exact Finset.sum_congr rfl fun i _ => by rw [rowOf_fin]
    rw [e2]; exact this
  · show Least p (w.getD j 0)
    rw [List.getD_eq_getElem _ _ (by rw [hw]; exact j.2)]
    refine hb (fun y hy => ?_) _ (List.getElem_mem _)
    rw [List.eq_of_mem_replicate hy]
    have := abs_pos.2 hp
    exact ⟨by omega, by omega⟩

theorem redVec_row (t : T) (p : Int) {m : SM} {A : Matrix (Fin r) (Fin c) ℤ} (hA : Rep z m A)
    (hm : RedMat t p m) (i : Fin r) {u : SV} (eu : row m (i + 1) = some u) : RedVec t p u := by
  obtain ⟨l, e, hl⟩ := hA.row i
  unfold row at eu
  rw [if_neg (by omega), Nat.add_sub_cancel, e, Option.map_some, Option.some.injEq] at eu
  have := row_fold m.nco l [] (by simpa using hl.wf.sorted)
  simp only [List.nil_append] at this
  unfold Svec.zero at eu
  rw [this] at eu
  rw [← eu]
  exact fun f hf => hm i l e f (List.mem_of_mem_filter hf)

/-- `mult_mod_p(smat,smat,p)` -/
theorem C47_mulMod (t : T) {a b : SM} {A : Matrix (Fin r) (Fin c) ℤ} {B : Matrix (Fin c) (Fin k) ℤ}
    (p : Int) (hp : p ≠ 0) (hA : Rep z a A) (hB : Rep z' b B) (ha : RedMat t p a) (hb : RedMat t p b) :
    ∃ m C, mulMod t a b p = some m ∧ Rep True m (C : Matrix (Fin r) (Fin k) ℤ) ∧
      ∀ i j, Spec.Cong p (C i j) ((A * B) i j) ∧ Least p (C i j) := by
  unfold mulMod
  have hn : a.nro = r := hA.nro
  have hnb : b.nro = c := hB.nro
  rw [if_neg (by rw [hA.nco, hnb]; simp), hn, hB.nco]
  have h0 := C47_new r k
  have hrow : ∀ i : Fin r, ∃ w b', ((row a (i + 1)).bind fun v => svecMulModP t v b p) = some w ∧
      SRep True w (b' : Fin k → ℤ) ∧ ∀ j, Spec.Cong p (b' j) ((A * B) i j) ∧ Least p (b' j) := by
    intro i
    obtain ⟨v, ev, hv⟩ := C47_row hA i
    obtain ⟨w, b', e, h1, h2⟩ := C47_svecMulModP t p hp hB hv hb (redVec_row t p hA ha i ev)
    exact ⟨w, b', by rw [ev]; exact e, h1, h2⟩
  choose w b' hw1 hw2 hw3 using hrow
  obtain ⟨m, e, hm⟩ := setrows_spec (z' := True) h0.nro h0.nco
    (fun i => by obtain ⟨l, e, _⟩ := h0.row i; exact ⟨l, e⟩)
    (fun _ i => (row a (i + 1)).bind fun v => svecMulModP t v b p) (Matrix.of b')
    (fun i s _ _ => ⟨w i, hw1 i, hw2 i⟩)
  refine ⟨m, Matrix.of b', ?_, hm, hw3⟩
  rw [← e]
  congr 1
  funext s i
  cases row a (i + 1) <;> rfl

/-- `mult_mod_p(smat,vec,p)` -/
theorem C47_mulVecModP (t : T) {m : SM} {v : List Int} {A : Matrix (Fin r) (Fin c) ℤ} (p : Int) (hp : p ≠ 0)
    (hA : Rep z m A) (hv : v.length = c) (hm : RedMat t p m) (hrv : ∀ x ∈ v, Red t p x) :
    ∃ w, mulVecModP t m v p = some w ∧ w.length = r ∧
      ∀ i : Fin r, Spec.Cong p (w.getD i 0) (A.mulVec (vecOf v c) i) := by
  unfold mulVecModP
  have hn : m.nro = r := hA.nro
  rw [if_neg (by rw [hA.nco, hv]; simp), hn]
  obtain ⟨w, e, hl, hp'⟩ := mapM_spec (fun i => (row m (i + 1)).bind fun w => Svec.dotVecModP t w v p)
    (fun i x => ∀ hi : i < r, Spec.Cong p x (A.mulVec (vecOf v c) ⟨i, hi⟩)) (List.range r) 0 (by
      intro i hi
      rw [List.getElem_range]
      obtain ⟨u, eu, hu⟩ := C47_row hA ⟨i, by simpa using hi⟩
      obtain ⟨x, ex, hx⟩ := Svec.Props.C15_dotVecModP t u v p hu.wf (by rw [hu.dim, hv]) hp
        (redVec_row t p hA hm _ eu) hrv
      simp only at eu
      rw [eu, Option.bind_some, ex]
      refine ⟨x, rfl, fun hi' => ?_⟩
      rw [hu.dim, sum_Icc] at hx
      have e2 : A.mulVec (vecOf v c) ⟨0 + i, hi'⟩ =
          ∑ j : Fin c, Svec.elem u (j + 1 : Int) * v.getD ((j : Int) + 1 - 1).toNat 0 := by
        show (∑ j : Fin c, A ⟨0 + i, hi'⟩ j * vecOf v c j) = _
        refine Finset.sum_congr rfl fun j _ => ?_
        rw [hu.val]
        simp [vecOf]
      rw [e2]; exact hx)
  have hlen : w.length = r := by rw [hl, List.length_range]
  refine ⟨w, e, hlen, fun i => ?_⟩
  rw [List.getD_eq_getElem w _ (by rw [hlen]; exact i.2)]
  have := hp' i (by rw [hlen]; exact i.2) (by rw [Nat.zero_add]; exact i.2)
  simpa using this

end Eclib.Smat.Props
