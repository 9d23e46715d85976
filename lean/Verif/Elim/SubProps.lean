import Verif.Elim.SubModel
import Verif.Elim.Props
import Verif.Smat.MulProps
import Verif.Smat.TransProps
import Verif.Mat.SubProps

/-!
# Sparse subspaces modulo p (C73): kernel, eigenspace, combine, restrict_mat, subeigenspace, make1d
-/

namespace Eclib.Elim

set_option linter.unusedSectionVars false

open Svec (T smod)
open Smat (SM Rep Is)
open Smat.Props (RedMat Least)
open Matrix

variable {q : ℕ} [hq : Fact q.Prime] {z : Prop} {n k l r : ℕ}

/-- an integer matrix modulo `q` -/
def mq (q : ℕ) {n k : ℕ} (A : Matrix (Fin n) (Fin k) ℤ) : Matrix (Fin n) (Fin k) (ZMod q) := A.map fun x => (x : ZMod q)

theorem mq_mul (A : Matrix (Fin n) (Fin k) ℤ) (B : Matrix (Fin k) (Fin l) ℤ) : mq q (A * B) = mq q A * mq q B :=
  Matrix.map_mul (f := Int.castRingHom (ZMod q))

theorem mq_of_cong {A B : Matrix (Fin n) (Fin k) ℤ} (h : ∀ i j, Spec.Cong q (A i j) (B i j)) : mq q A = mq q B := by
  ext i j
  exact Mat.cast_eq_of_cong (h i j)

theorem least_abs {x : ℤ} (h : Least q x) : |x| < q := by
  have h0 : (0 : ℤ) < q := by exact_mod_cast hq.out.pos
  obtain ⟨h1, h2⟩ := h
  rw [abs_of_pos h0] at h1 h2
  rw [abs_lt]
  constructor <;> omega

theorem red_of_abs {t : T} {x : ℤ} (h : |x| < q) : Svec.Props.Red t q x := fun _ e => by rw [← e]; exact h

/-- the entry stored is the entry of the matrix -/
theorem Is.mem {l : List (ℤ × ℤ)} {a : Fin n → ℤ} (h : Is z l a) {e : ℤ × ℤ} (he : e ∈ l) :
    ∃ j : Fin n, e.1 = (j : ℤ) + 1 ∧ e.2 = a j := by
  have hr := h.wf.range e he
  simp only at hr
  refine ⟨⟨(e.1 - 1).toNat, by omega⟩, by simp only; omega, ?_⟩
  rw [← h.val, Svec.elem]
  have e1 : (((⟨(e.1 - 1).toNat, by omega⟩ : Fin n) : ℕ) : ℤ) + 1 = e.1 := by simp only; omega
  rw [e1, Svec.find_of_mem l h.wf.sorted e.1 e.2 he]
  rfl

theorem redMat_of_val {t : T} {m : SM} {A : Matrix (Fin r) (Fin k) ℤ} (h : Rep z m A) (hA : ∀ i j, Svec.Props.Red t q (A i j)) :
    RedMat t q m := by
  intro i l e f hf
  by_cases hi : i < r
  · obtain ⟨l', e', hl⟩ := h.row ⟨i, hi⟩
    simp only at e'
    rw [e] at e'
    obtain rfl : l = l' := by simpa using e'
    obtain ⟨j, _, h2⟩ := Is.mem hl hf
    rw [h2]
    exact hA _ j
  · have : m.readRow i = none := by
      unfold SM.readRow
      rw [List.getElem?_eq_none (by rw [h.nro]; omega)]
      rfl
    rw [this] at e
    exact absurd e (by simp)

/-- a row of the sparse matrix as a linear form -/
theorem dot_toRow {l : List (ℤ × ℤ)} {a : Fin n → ℤ} (h : Is z l a) (x : ℕ → ZMod q) :
    dot q (toRow l) x = ∑ j : Fin n, (a j : ZMod q) * x (j + 1) := by
  have hc : ∀ y : ZMod q, ((y.val : ℤ) : ZMod q) = y := fun y => by
    rw [Int.cast_natCast]
    exact ZMod.natCast_zmod_val y
  have := congrArg (fun s : ℤ => (s : ZMod q)) (Smat.sum_entries' h fun i => ((x i.toNat).val : ℤ))
  simp only [Int.cast_sum, Int.cast_mul, hc] at this
  have e1 : ∀ j : Fin n, ((j : ℤ) + 1).toNat = (j : ℕ) + 1 := fun j => by omega
  simp only [e1] at this
  rw [← this]
  unfold dot toRow
  have e2 : ∀ L : List ℤ, ((L.sum : ℤ) : ZMod q) = (L.map fun y : ℤ => (y : ZMod q)).sum := fun L =>
    map_list_sum (Int.castRingHom (ZMod q)) L
  rw [e2, List.map_map, List.map_map]
  congr 1
  refine List.map_congr_left fun e _ => ?_
  simp only [Function.comp, Int.cast_mul, hc]

/-- What a sparse subspace of `GF(q)^n` of dimension `k` is: the entries of the basis matrix are stored
reduced modulo `q`, without zeros, and its rows `piv` are the identity matrix modulo `q`. -/
structure SubOk (q : ℕ) {n k : ℕ} (s : SSub) (B : Matrix (Fin n) (Fin k) ℤ) (piv : Fin k → Fin n) : Prop where
  modulus : s.modulus = some (q : ℤ)
  rep : Rep True s.basis B
  least : ∀ i j, Least q (B i j)
  pivots : s.pivots = List.ofFn fun i => (piv i : ℕ) + 1
  mono : StrictMono piv
  unit : (mq q B).submatrix piv id = 1

/-- the vectors of the subspace with basis matrix `B` -/
def InSpan (q : ℕ) {n k : ℕ} (B : Matrix (Fin n) (Fin k) ℤ) (v : Fin n → ZMod q) : Prop :=
  ∃ y : Fin k → ZMod q, v = mq q B *ᵥ y

theorem SubOk.inj {s : SSub} {B : Matrix (Fin n) (Fin k) ℤ} {piv : Fin k → Fin n} (h : SubOk q s B piv) {x y : Fin k → ZMod q}
    (hxy : mq q B *ᵥ x = mq q B *ᵥ y) : x = y := by
  have e : ∀ x : Fin k → ZMod q, ((mq q B).submatrix piv id) *ᵥ x = fun i => (mq q B *ᵥ x) (piv i) := fun x => rfl
  have h1 := e x
  rw [hxy, ← e y, h.unit, one_mulVec, one_mulVec] at h1
  exact h1

/-! ### kernel -/

theorem rowOk_toRow {t : T} {l : List (ℤ × ℤ)} {a : Fin n → ℤ} (h : Is True l a) (ha : ∀ j, |a j| < q) : RowOk t q n (toRow l) := by
  have hval : ∀ e ∈ l, (1 ≤ e.1 ∧ e.1 ≤ n) ∧ e.2 ≠ 0 ∧ |e.2| < q := fun e he => by
    obtain ⟨j, h1, h2⟩ := Is.mem h he
    refine ⟨?_, h.nz trivial e he, by rw [h2]; exact ha j⟩
    have := j.2
    omega
  constructor
  · unfold keys toRow
    rw [List.map_map, List.pairwise_map]
    refine (List.Pairwise.imp_of_mem ?_ h.wf.sorted)
    intro a b ha hb hab
    have h1 := (hval a ha).1
    have h2 := (hval b hb).1
    simp only [Function.comp]
    have : a.1 < b.1 := hab
    omega
  · intro c hc
    simp only [keys, toRow, List.map_map, List.mem_map, Function.comp] at hc
    obtain ⟨e, he, rfl⟩ := hc
    have := (hval e he).1
    omega
  · intro e he
    simp only [toRow, List.mem_map] at he
    obtain ⟨f, hf, rfl⟩ := he
    obtain ⟨_, h2, h3⟩ := hval f hf
    simp only
    rw [Ne, ZMod.intCast_zmod_eq_zero_iff_dvd]
    intro hd
    exact h2 (Int.eq_zero_of_abs_lt_dvd hd h3)
  · intro e he _
    simp only [toRow, List.mem_map] at he
    obtain ⟨f, hf, rfl⟩ := he
    exact (hval f hf).2.2

theorem rowsOf_spec {sm : SM} {A : Matrix (Fin r) (Fin n) ℤ} (h : Rep True sm A) :
    ∃ rows, rowsOf sm = some rows ∧ rows.length = r ∧ ∀ i : Fin r, ∃ l, Is True l (A i) ∧ rows[(i : ℕ)]? = some (toRow l) := by
  unfold rowsOf
  have hn : sm.nro = r := h.nro
  rw [hn]
  obtain ⟨rows, e, hl, hp⟩ := Smat.mapM_spec (fun i => (sm.readRow i).map toRow)
    (fun i row => ∀ hi : i < r, ∃ l, Is True l (A ⟨i, hi⟩) ∧ row = toRow l) (List.range r) 0 (by
      intro i hi
      rw [List.length_range] at hi
      obtain ⟨l, e, hl⟩ := h.row ⟨i, hi⟩
      rw [List.getElem_range]
      simp only at e
      refine ⟨toRow l, by rw [e]; rfl, fun hi' => ⟨l, ?_, rfl⟩⟩
      convert hl using 3
      omega)
  rw [List.length_range] at hl
  refine ⟨rows, e, hl, fun i => ?_⟩
  obtain ⟨l, h1, h2⟩ := hp i (by rw [hl]; exact i.2) (by rw [Nat.zero_add]; exact i.2)
  refine ⟨l, ?_, by rw [List.getElem?_eq_getElem (by rw [hl]; exact i.2), h2]⟩
  convert h1 using 3
  omega

theorem inKer_iff {rows : List Row} {A : Matrix (Fin r) (Fin n) ℤ} (hlen : rows.length = r)
    (hrow : ∀ i : Fin r, ∃ l, Is True l (A i) ∧ rows[(i : ℕ)]? = some (toRow l)) (x : ℕ → ZMod q) :
    InKer q rows x ↔ mq q A *ᵥ (fun j => x (j + 1)) = 0 := by
  have key : ∀ i : Fin r, ∃ row ∈ rows, rows[(i : ℕ)]? = some row ∧ dot q row x = (mq q A *ᵥ (fun j => x (j + 1))) i := by
    intro i
    obtain ⟨l, h1, h2⟩ := hrow i
    exact ⟨_, List.mem_of_getElem? h2, h2, dot_toRow h1 x⟩
  constructor
  · intro h
    funext i
    obtain ⟨row, h1, _, h3⟩ := key i
    rw [← h3]
    exact h row h1
  · intro h row hr
    obtain ⟨i, hi, rfl⟩ := List.getElem_of_mem hr
    obtain ⟨row, _, h2, h3⟩ := key ⟨i, hlen ▸ hi⟩
    rw [List.getElem?_eq_getElem hi] at h2
    obtain rfl : rows[i] = row := by simpa using h2
    rw [h3, h]
    rfl

/-- the basis of a kernel as a sparse matrix -/
theorem ofRow_spec {row : Row} (hs : (keys row).Pairwise (· < ·)) (hr : ∀ d ∈ keys row, 1 ≤ d ∧ d ≤ k)
    (hv : ∀ e ∈ row, e.2 ≠ 0) :
    ∃ R l, ofRow row = some R ∧ R.read = some l ∧ toRow l = row ∧
      Is True l (fun j : Fin k => Svec.elem ⟨k, l⟩ (j + 1 : ℤ)) ∧
      ∀ P : ℤ → Prop, P 0 → (∀ e ∈ row, P e.2) → ∀ j : Fin k, P (Svec.elem ⟨k, l⟩ (j + 1 : ℤ)) := by
  obtain ⟨R, e, hR⟩ := Smat.make_spec row.length (row.map fun e => ((e.1 : ℤ), e.2)) (by simp)
  refine ⟨R, _, e, hR, ?_, ⟨⟨?_, ?_⟩, fun _ => rfl, ?_⟩, ?_⟩
  · unfold toRow
    rw [List.map_map]
    simp [Function.comp_def]
  · unfold keys at hs
    rw [List.pairwise_map] at hs
    show List.Pairwise _ _
    rw [List.pairwise_map]
    exact hs.imp fun h => by simpa using h
  · intro f hf
    obtain ⟨g, hg, rfl⟩ := List.mem_map.1 hf
    have := hr g.1 (List.mem_map.2 ⟨g, hg, rfl⟩)
    simp only
    omega
  · intro _ f hf
    obtain ⟨g, hg, rfl⟩ := List.mem_map.1 hf
    exact hv g hg
  · intro P h0 hP j
    unfold Svec.elem
    cases hf : Svec.find (row.map fun e => ((e.1 : ℤ), e.2)) (j + 1 : ℤ) with
    | none => exact h0
    | some x =>
      obtain ⟨g, hg, e2⟩ := List.mem_map.1 (Svec.mem_of_find _ _ _ hf)
      have : g.2 = x := congrArg Prod.snd e2
      simp only [Option.getD_some]
      rw [← this]
      exact hP g hg

/-- the coordinates of a vector, from 1 -/
def ext0 (v : Fin n → ZMod q) (i : ℕ) : ZMod q := if h : 1 ≤ i ∧ i ≤ n then v ⟨i - 1, by omega⟩ else 0

theorem ext0_succ (v : Fin n → ZMod q) (j : Fin n) : ext0 v ((j : ℕ) + 1) = v j := by
  unfold ext0
  rw [dif_pos ⟨by omega, by omega⟩]
  rfl

/-- the pivots as a map -/
theorem exists_piv {ps : List ℕ} (hs : ps.Pairwise (· < ·)) (hr : ∀ c ∈ ps, 1 ≤ c ∧ c ≤ n) :
    ∃ piv : Fin ps.length → Fin n, ps = List.ofFn (fun i => (piv i : ℕ) + 1) ∧ StrictMono piv := by
  have h1 : ∀ i : Fin ps.length, 1 ≤ ps[i] ∧ ps[i] ≤ n := fun i => hr _ (List.getElem_mem i.2)
  refine ⟨fun i => ⟨ps[i] - 1, by have := h1 i; omega⟩, ?_, ?_⟩
  · refine List.ext_getElem (by simp) fun i h _ => ?_
    have := h1 ⟨i, h⟩
    simp only [Fin.getElem_fin] at this
    simp only [List.getElem_ofFn, Fin.getElem_fin]
    omega
  · intro i j hij
    have h2 := List.pairwise_iff_getElem.1 hs i j i.2 j.2 hij
    have h3 := h1 i
    have h4 := h1 j
    simp only [Fin.getElem_fin] at h3 h4
    simp only [Fin.mk_lt_mk, Fin.getElem_fin]
    omega

/-- **C73 (kernel).** -/
theorem C73_kernel (X : Marith.XGcd) (t : T) {sm : SM} {A : Matrix (Fin r) (Fin n) ℤ} (h : Rep True sm A) (hA : ∀ i j, |A i j| < q)
    {sparse : St → Bool} (hsp : SparseOk sparse) {rref : Mat.M → Mat.Ech} (hR : RrefOk q rref) {fuel : ℕ}
    (hf : (r + 1) * (r + n + 1) ≤ fuel) :
    ∃ s k, ∃ (B : Matrix (Fin n) (Fin k) ℤ) (piv : Fin k → Fin n), skernel X t q sparse rref fuel sm = some s ∧ SubOk q s B piv ∧
      ∀ v, InSpan q B v ↔ mq q A *ᵥ v = 0 := by
  obtain ⟨rows, e1, hlen, hrow⟩ := rowsOf_spec h
  have hok : ∀ l ∈ rows, RowOk t q n l := by
    intro l hl
    obtain ⟨i, hi, rfl⟩ := List.getElem_of_mem hl
    obtain ⟨l', h1, h2⟩ := hrow ⟨i, hlen ▸ hi⟩
    rw [List.getElem?_eq_getElem hi] at h2
    rw [Option.some.inj h2]
    exact rowOk_toRow h1 (hA _)
  obtain ⟨K, e2, hK, _, _⟩ := C71_kernel X hok hsp hR (fuel := fuel) (by rw [hlen]; exact hf)
  have hker := inKer_iff (q := q) hlen hrow
  obtain ⟨rs, e3, hl3, hp3⟩ := Smat.mapM_spec ofRow (fun i R => ∃ l row, K.bas[i]? = some row ∧ R.read = some l ∧ toRow l = row ∧
      Is True l (fun j : Fin K.npc.length => Svec.elem ⟨K.npc.length, l⟩ (j + 1 : ℤ)) ∧
      ∀ j : Fin K.npc.length, Least q (Svec.elem ⟨K.npc.length, l⟩ (j + 1 : ℤ))) K.bas 0 (by
    intro i hi
    obtain ⟨g1, g2, g3⟩ := hK.ok _ (List.getElem_mem hi)
    obtain ⟨R, l, a1, a2, a3, a4, a5⟩ := ofRow_spec g1 g2 (fun e he => (g3 e he).1)
    have h0 : (0 : ℤ) < q := by exact_mod_cast hq.out.pos
    refine ⟨R, a1, l, _, List.getElem?_eq_getElem (by omega), a2, ?_, a4, a5 (Least q) ?_ ?_⟩
    · rw [a3]; congr 1; omega
    · exact ⟨by rw [abs_of_pos h0]; omega, by rw [abs_of_pos h0]; omega⟩
    · intro e he
      have := (g3 e he).2
      exact ⟨by rw [abs_of_pos h0]; omega, by rw [abs_of_pos h0]; omega⟩)
  have hrl : rs.length = n := hl3.trans hK.len
  have hex : ∀ i : Fin n, ∃ l row, K.bas[(i : ℕ)]? = some row ∧ (rs[(i : ℕ)]'(by rw [hrl]; exact i.2)).read = some l ∧ toRow l = row ∧
      Is True l (fun j : Fin K.npc.length => Svec.elem ⟨K.npc.length, l⟩ (j + 1 : ℤ)) ∧
      ∀ j : Fin K.npc.length, Least q (Svec.elem ⟨K.npc.length, l⟩ (j + 1 : ℤ)) := by
    intro i
    have := hp3 i (by rw [hrl]; exact i.2)
    simpa only [Nat.zero_add] using this
  choose L row w1 w2 w3 w4 w5 using hex
  obtain ⟨piv, hpv, hmono⟩ := exists_piv (n := n) hK.npc (fun c hc => (hK.cols c).1 (Or.inr hc))
  let B : Matrix (Fin n) (Fin K.npc.length) ℤ := Matrix.of fun i j => Svec.elem ⟨K.npc.length, L i⟩ (j + 1 : ℤ)
  have hdot : ∀ (i : Fin n) (y : ℕ → ZMod q), dot q (K.bas.getD i []) y = (mq q B *ᵥ fun j => y (j + 1)) i := by
    intro i y
    rw [List.getD_eq_getElem?_getD, w1 i, Option.getD_some, ← w3 i]
    exact dot_toRow (w4 i) y
  have hpiv : ∀ i : Fin K.npc.length, K.npc.getD i 0 = (piv i : ℕ) + 1 := by
    intro i
    rw [List.getD_eq_getElem _ _ i.2]
    have hi : (i : ℕ) < (List.ofFn fun i => (piv i : ℕ) + 1).length := by rw [← hpv]; exact i.2
    have h3 : ∀ (a b : List ℕ) (hab : a = b) (h1 : (i : ℕ) < a.length) (h2 : (i : ℕ) < b.length), a[(i : ℕ)] = b[(i : ℕ)] := by
      rintro a b rfl _ _; rfl
    rw [h3 _ _ hpv i.2 hi, List.getElem_ofFn]
  have hunit : (mq q B).submatrix piv id = 1 := by
    ext i j
    have h1 := hK.unit i i.2 (ext0 (Pi.single j (1 : ZMod q)))
    rw [hpiv, Nat.add_sub_cancel, hdot, ext0_succ] at h1
    simp only [ext0_succ] at h1
    rw [show (fun j_1 => (Pi.single j 1 : Fin K.npc.length → ZMod q) j_1) = Pi.single j 1 from rfl, mulVec_single_one] at h1
    rw [submatrix_apply, one_apply]
    rw [Matrix.col_apply] at h1
    simp only [id]
    rw [h1, Pi.single_apply]
  refine ⟨⟨some (q : ℤ), K.npc, ⟨K.npc.length, rs⟩⟩, K.npc.length, B, piv, ?_, ⟨rfl, ?_, fun i j => w5 i j, hpv, hmono, hunit⟩, fun v => ?_⟩
  · unfold skernel
    rw [e1, Option.bind_some, h.nco, e2, Option.bind_some, e3]
    rfl
  · exact Smat.rep_of_rows rs hrl fun i hi => ⟨_, w2 ⟨i, hrl ▸ hi⟩, w4 _⟩
  · have hv : ∀ v : Fin n → ZMod q, (fun j : Fin n => ext0 v ((j : ℕ) + 1)) = v := fun v => funext fun j => ext0_succ v j
    constructor
    · rintro ⟨y, rfl⟩
      have h1 := (hker _).1 (hK.null (ext0 y))
      rw [← h1]
      congr 1
      funext i
      rw [Nat.add_sub_cancel, hdot]
      simp only [ext0_succ]
    · intro h0
      have h1 : InKer q rows (ext0 v) := (hker _).2 (by rw [hv]; exact h0)
      have h2 := hK.complete _ h1
      refine ⟨fun j => v (piv j), funext fun i => ?_⟩
      have h3 := h2 (i + 1) (by omega) (by omega)
      rw [ext0_succ, Nat.add_sub_cancel, hdot] at h3
      rw [h3]
      congr 2
      funext j
      rw [Nat.add_sub_cancel, hpiv, ext0_succ]

/-- **C73 (eigenspace).** -/
theorem C73_eigenspace (X : Marith.XGcd) (t : T) {sm : SM} {A : Matrix (Fin n) (Fin n) ℤ} (h : Rep z sm A) (lam : ℤ)
    {sparse : St → Bool} (hsp : SparseOk sparse) {rref : Mat.M → Mat.Ech} (hR : RrefOk q rref) {fuel : ℕ}
    (hf : (n + 1) * (n + n + 1) ≤ fuel) :
    ∃ s k, ∃ (B : Matrix (Fin n) (Fin k) ℤ) (piv : Fin k → Fin n), seigenspace X t q sparse rref fuel sm lam = some s ∧ SubOk q s B piv ∧
      ∀ v, InSpan q B v ↔ mq q A *ᵥ v = (lam : ZMod q) • v := by
  have hp : (q : ℤ) ≠ 0 := by exact_mod_cast hq.out.ne_zero
  obtain ⟨m', C, e1, h1, h2⟩ := Smat.Props.C47_subModP t h lam q hp
  obtain ⟨s, k, B, piv, e2, h3, h4⟩ := C73_kernel X t h1 (fun i j => least_abs (h2 i j).2) hsp hR hf
  refine ⟨s, k, B, piv, by unfold seigenspace; rw [e1]; exact e2, h3, fun v => ?_⟩
  rw [h4, mq_of_cong (fun i j => (h2 i j).1)]
  have : mq q (A - lam • (1 : Matrix (Fin n) (Fin n) ℤ)) = mq q A - (lam : ZMod q) • 1 := by
    ext i j
    simp only [mq, Matrix.map_apply, Matrix.sub_apply, Matrix.smul_apply, one_apply, smul_eq_mul]
    split_ifs <;> simp
  rw [this, sub_mulVec, smul_mulVec, one_mulVec, sub_eq_zero]

/-! ### combine and restrict_mat -/

/-- **C73 (combining).** -/
theorem C73_combine (t : T) {s1 s2 : SSub} {B1 : Matrix (Fin n) (Fin k) ℤ} {B2 : Matrix (Fin k) (Fin l) ℤ} {p1 : Fin k → Fin n}
    {p2 : Fin l → Fin k} (h1 : SubOk q s1 B1 p1) (h2 : SubOk q s2 B2 p2) :
    ∃ s, ∃ B : Matrix (Fin n) (Fin l) ℤ, scombine t s1 s2 = some s ∧ SubOk q s B (p1 ∘ p2) ∧ mq q B = mq q B1 * mq q B2 := by
  have hp : (q : ℤ) ≠ 0 := by exact_mod_cast hq.out.ne_zero
  obtain ⟨m, C, e, hC, hc⟩ := Smat.Props.C47_mulMod t (q : ℤ) hp h1.rep h2.rep
    (redMat_of_val h1.rep fun i j => red_of_abs (least_abs (h1.least i j)))
    (redMat_of_val h2.rep fun i j => red_of_abs (least_abs (h2.least i j)))
  have hmul : mq q C = mq q B1 * mq q B2 := by rw [mq_of_cong (fun i j => (hc i j).1), mq_mul]
  have hpi : pivIndex s1.pivots s2.pivots = some (List.ofFn fun i => ((p1 ∘ p2) i : ℕ) + 1) := by
    unfold pivIndex
    rw [h1.pivots, h2.pivots]
    have : ∀ L : List (Fin l), (L.map fun i => (p2 i : ℕ) + 1).mapM
        (fun i => if i = 0 then none else (List.ofFn fun i => (p1 i : ℕ) + 1)[i - 1]?) = some (L.map fun i => (p1 (p2 i) : ℕ) + 1) := by
      intro L
      induction L with
      | nil => rfl
      | cons a L ih =>
        rw [List.map_cons, List.mapM_cons, ih, if_neg (by omega), Nat.add_sub_cancel,
          List.getElem?_eq_getElem (by rw [List.length_ofFn]; exact (p2 a).2), List.getElem_ofFn]
        rfl
    have h3 := this (List.finRange l)
    rw [← List.ofFn_eq_map, ← List.ofFn_eq_map] at h3
    exact h3
  refine ⟨⟨some (q : ℤ), _, m⟩, C, ?_, ⟨rfl, hC, fun i j => (hc i j).2, rfl, h1.mono.comp h2.mono, ?_⟩, hmul⟩
  · unfold scombine
    rw [h1.modulus, Option.bind_some, e, Option.bind_some, hpi]
    rfl
  · have e1 : (mq q B1 * mq q B2).submatrix (p1 ∘ p2) id = ((mq q B1).submatrix p1 id * mq q B2).submatrix p2 id := by
      ext i j; rfl
    rw [hmul, e1, h1.unit, Matrix.one_mul, h2.unit]

theorem selectRows_fun {m : SM} {A : Matrix (Fin r) (Fin n) ℤ} (h : Rep z m A) (piv : Fin k → Fin r) :
    ∃ m', Smat.selectRows m (List.ofFn fun i => (piv i : ℕ) + 1) = some m' ∧ Rep True m' (A.submatrix piv id) := by
  obtain ⟨m', e, h1⟩ := Smat.Props.C47_selectRows h (List.ofFn piv)
  have hl : (List.ofFn piv).length = k := List.length_ofFn
  have e2 : ((List.ofFn piv).map fun i : Fin r => (i : ℕ) + 1) = List.ofFn fun i => (piv i : ℕ) + 1 := by
    rw [List.map_ofFn]; rfl
  rw [e2] at e
  refine ⟨m', e, h1.nro.trans hl, h1.nco, fun i => ?_⟩
  obtain ⟨l, e3, h3⟩ := h1.row (Fin.cast hl.symm i)
  refine ⟨l, e3, h3.congr fun j => ?_⟩
  simp

/-- a subspace is invariant under a matrix -/
def Invariant (q : ℕ) {n k : ℕ} (A : Matrix (Fin n) (Fin n) ℤ) (B : Matrix (Fin n) (Fin k) ℤ) : Prop :=
  ∀ v, InSpan q B v → InSpan q B (mq q A *ᵥ v)

/-- **C73 (restriction).** The values of the matrix must be reduced if the scalars are `int` and the modulus
is the large prime for which multiplication is done without division. -/
theorem C73_restrict_mat (t : T) {m : SM} {A : Matrix (Fin n) (Fin n) ℤ} (h : Rep z m A) (hA : ∀ i j, Svec.Props.Red t q (A i j)) {s : SSub}
    {B : Matrix (Fin n) (Fin k) ℤ} {piv : Fin k → Fin n} (hs : SubOk q s B piv) (hinv : Invariant q A B) :
    ∃ m', ∃ A' : Matrix (Fin k) (Fin k) ℤ, srestrict t m s = some m' ∧ Rep True m' A' ∧ (∀ i j, Least q (A' i j)) ∧
      mq q A * mq q B = mq q B * mq q A' := by
  have hp : (q : ℤ) ≠ 0 := by exact_mod_cast hq.out.ne_zero
  obtain ⟨m1, e1, h1⟩ := selectRows_fun h piv
  obtain ⟨m', C, e, hC, hc⟩ := Smat.Props.C47_mulMod t (q : ℤ) hp h1 hs.rep (redMat_of_val h1 fun i j => hA _ _)
    (redMat_of_val hs.rep fun i j => red_of_abs (least_abs (hs.least i j)))
  refine ⟨m', C, ?_, hC, fun i j => (hc i j).2, ?_⟩
  · unfold srestrict
    rw [hs.modulus, Option.bind_some, hs.pivots, e1, Option.bind_some, e]
  · have key : ∀ j : Fin k, ∃ x : Fin k → ZMod q, mq q A *ᵥ (mq q B).col j = mq q B *ᵥ x := fun j =>
      hinv _ ⟨Pi.single j 1, by rw [mulVec_single_one]⟩
    choose x hx using key
    have hM : mq q A * mq q B = mq q B * Matrix.of fun i j => x j i := by
      ext i j
      exact congrFun (hx j) i
    have h2 := Mat.Props.restrict_core (d := (1 : ZMod q)) (by rw [hs.unit, one_smul]) hM
    rw [one_smul] at h2
    rw [mq_of_cong (fun i j => (hc i j).1), mq_mul, h2]
    rfl

/-- **C73 (eigenspaces in a subspace).** For a subspace `S` invariant under `A`, `subeigenspace` is the
subspace of the vectors `v` of `S` with `A v = lam v`. -/
theorem C73_subeigenspace (X : Marith.XGcd) (t : T) {m : SM} {A : Matrix (Fin n) (Fin n) ℤ} (h : Rep z m A) (hA : ∀ i j, Svec.Props.Red t q (A i j))
    {s : SSub} {B : Matrix (Fin n) (Fin k) ℤ} {piv : Fin k → Fin n} (hs : SubOk q s B piv) (hinv : Invariant q A B) (lam : ℤ)
    {sparse : St → Bool} (hsp : SparseOk sparse) {rref : Mat.M → Mat.Ech} (hR : RrefOk q rref) {fuel : ℕ}
    (hf : (k + 1) * (k + k + 1) ≤ fuel) :
    ∃ s' d, ∃ (B' : Matrix (Fin n) (Fin d) ℤ) (piv' : Fin d → Fin n), ssubeigenspace X t q sparse rref fuel m lam s = some s' ∧
      SubOk q s' B' piv' ∧ (∀ i, ∃ j, piv' i = piv j) ∧
      ∀ v, InSpan q B' v ↔ InSpan q B v ∧ mq q A *ᵥ v = (lam : ZMod q) • v := by
  obtain ⟨m1, A1, e1, h1, _, h3⟩ := C73_restrict_mat t h hA hs hinv
  obtain ⟨s2, d, B2, p2, e2, k1, k2⟩ := C73_eigenspace X t h1 lam hsp hR hf
  obtain ⟨s3, B3, e3, k3, k4⟩ := C73_combine t hs k1
  refine ⟨s3, d, B3, _, ?_, k3, fun i => ⟨p2 i, rfl⟩, fun v => ?_⟩
  · unfold ssubeigenspace
    rw [e1, Option.bind_some, e2, Option.bind_some, e3]
  · have key : ∀ y : Fin k → ZMod q, mq q A *ᵥ (mq q B *ᵥ y) = (lam : ZMod q) • (mq q B *ᵥ y) ↔
        mq q A1 *ᵥ y = (lam : ZMod q) • y := by
      intro y
      rw [mulVec_mulVec, h3, ← mulVec_mulVec, ← mulVec_smul]
      exact ⟨fun hh => hs.inj hh, fun hh => by rw [hh]⟩
    constructor
    · rintro ⟨x, rfl⟩
      rw [k4, ← mulVec_mulVec]
      exact ⟨⟨_, rfl⟩, (key _).2 ((k2 _).1 ⟨x, rfl⟩)⟩
    · rintro ⟨⟨y, rfl⟩, hy⟩
      obtain ⟨x, hx⟩ := (k2 y).2 ((key y).1 hy)
      exact ⟨x, by rw [k4, ← mulVec_mulVec, ← hx]⟩

/-! ### make1d and the whole space -/

/-- **C73 (one-dimensional subspace).** For a non-zero vector, `make1d` gives the matrix with this vector as
its only column; the pivot is the first non-zero entry. -/
theorem C73_make1d (p : ℤ) (bas : List ℤ) (hb : ∃ x ∈ bas, x ≠ 0) :
    ∃ s, ∃ i : Fin bas.length, smake1d p bas = some (s, bas[i]) ∧ s.modulus = some p ∧ s.pivots = [(i : ℕ) + 1] ∧ bas[i] ≠ 0 ∧
      (∀ j : Fin bas.length, j < i → bas[j] = 0) ∧ Rep True s.basis (Matrix.of fun (a : Fin bas.length) (_ : Fin 1) => bas[a]) := by
  obtain ⟨g1, g2, g3, g4⟩ := Svec.Props.C15_ofVec bas
  have hel : ∀ j : Fin bas.length, Svec.elem (Svec.ofVec bas) (j + 1 : ℤ) = bas[j] := fun j => by
    rw [g4 j j.2, List.getD_eq_getElem _ _ j.2]; rfl
  have hS : Smat.Props.SRep True (Svec.ofVec bas) (fun j : Fin bas.length => bas[j]) := Smat.Props.SRep.of g3 g1 hel fun _ => g2
  obtain ⟨tb, e1, h1⟩ := Smat.Props.C47_setrow (Smat.Props.C47_new 1 bas.length) 0 hS
  obtain ⟨b, e2, h2⟩ := Smat.Props.C47_transpose h1
  -- the first entry
  have hmem : ∀ e ∈ (Svec.ofVec bas).entries, ∃ j : Fin bas.length, e.1 = (j : ℤ) + 1 ∧ e.2 = bas[j] := fun e he => Is.mem hS.is he
  have hfind : ∀ j : Fin bas.length, bas[j] ≠ 0 → ∃ e ∈ (Svec.ofVec bas).entries, e.1 = (j : ℤ) + 1 := by
    intro j hj
    rw [← hel j, Svec.elem] at hj
    cases hf : Svec.find (Svec.ofVec bas).entries (j + 1 : ℤ) with
    | none => rw [hf] at hj; exact absurd rfl hj
    | some x => exact ⟨_, Svec.mem_of_find _ _ _ hf, rfl⟩
  cases hl : (Svec.ofVec bas).entries with
  | nil =>
    obtain ⟨x, hx, hx0⟩ := hb
    obtain ⟨j, hj, rfl⟩ := List.getElem_of_mem hx
    obtain ⟨e, he, _⟩ := hfind ⟨j, hj⟩ hx0
    rw [hl] at he
    simp at he
  | cons e0 L =>
    have he0 : e0 ∈ (Svec.ofVec bas).entries := by rw [hl]; exact List.mem_cons_self
    obtain ⟨i, hi1, hi2⟩ := hmem e0 he0
    have hfi : firstIndex (Svec.ofVec bas) = some ((i : ℤ) + 1) := by
      unfold firstIndex
      rw [hl, List.find?_cons_of_pos (by simp only [decide_eq_true_eq]; omega), Option.map_some, hi1]
    refine ⟨⟨some p, [(i : ℕ) + 1], b⟩, i, ?_, rfl, rfl, ?_, fun j hj => ?_, ?_⟩
    · unfold smake1d
      have e1' : Smat.setrow (Smat.new 1 bas.length) 1 (Svec.ofVec bas) = some tb := e1
      simp only
      rw [e1', Option.bind_some, hfi, Option.bind_some, e2, Option.map_some, hel]
      congr 3
    · rw [← hi2]; exact g2 e0 he0
    · by_contra hj0
      obtain ⟨e, he, hej⟩ := hfind j hj0
      have hlt : (j : ℤ) < i := by exact_mod_cast hj
      have hs := g1.sorted
      rw [hl] at hs he
      rcases List.mem_cons.1 he with rfl | he
      · omega
      · have : e0.1 < e.1 := (List.pairwise_cons.1 hs).1 e he
        omega
    · convert h2 using 1
      ext a j
      obtain rfl : j = 0 := Subsingleton.elim _ _
      simp

/-- for the zero vector `make1d` reads the end of the map -/
theorem C73_make1d_zero (p : ℤ) : smake1d p [0, 0] = none := by
  have h : firstIndex (Svec.ofVec [0, 0]) = none := by decide +kernel
  unfold smake1d
  simp only [h]
  cases Smat.setrow (Smat.new 1 [(0 : ℤ), 0].length) 1 (Svec.ofVec [0, 0]) <;> rfl

/-- the modulus of `ssubspace(n)` is not set, so that it cannot be the first operand of `combine` nor the
subspace of `restrict_mat` -/
theorem C73_whole_undefined (t : T) (n : ℕ) (s2 : SSub) (m : SM) :
    ((whole n).bind fun s => scombine t s s2) = none ∧ ((whole n).bind fun s => srestrict t m s) = none := by
  unfold whole
  constructor <;> cases Smat.scalarMatrix n 1 <;> rfl

/-! ### examples -/

/-- a 3 x 3 matrix with eigenvalues 2, 2, 5 -/
def exA : Matrix (Fin 3) (Fin 3) ℤ := !![2, 0, 0; 1, 5, 0; 0, 0, 2]

/-- the sparse matrix of `exA` -/
def exSM : SM := ⟨3, [⟨[some 1, some 1], [some 2]⟩, ⟨[some 2, some 1, some 2], [some 1, some 5]⟩, ⟨[some 1, some 3], [some 2]⟩]⟩

theorem exSM_rep : Rep True exSM exA := by
  refine ⟨rfl, rfl, fun i => ?_⟩
  fin_cases i
  · exact ⟨[(1, 2)], rfl, ⟨by simp [Svec.Sorted], by decide⟩, by decide, by decide⟩
  · exact ⟨[(1, 1), (2, 5)], rfl, ⟨by simp [Svec.Sorted], by decide⟩, by decide, by decide⟩
  · exact ⟨[(3, 2)], rfl, ⟨by simp [Svec.Sorted], by decide⟩, by decide, by decide⟩

example : ∃ s k, ∃ (B : Matrix (Fin 3) (Fin k) ℤ) (piv : Fin k → Fin 3),
    seigenspace Marith.Props.xgcd0 .int (7 : ℕ) (fun _ => true) (Mat.echmodp Marith.Props.xgcd0 .int 7) 28 exSM 2 = some s ∧
      SubOk 7 s B piv ∧ ∀ v, InSpan 7 B v ↔ mq 7 exA *ᵥ v = ((2 : ℤ) : ZMod 7) • v :=
  C73_eigenspace (q := 7) Marith.Props.xgcd0 .int exSM_rep 2 (fun _ _ => rfl) (rrefOk_echmodp _ .int) (by decide)

/-- the eigenspace for 2: (x,y,z) with x = -3y -/
example : (seigenspace Marith.Props.xgcd0 .int 7 (fun _ => true) (Mat.echmodp Marith.Props.xgcd0 .int 7) 28 exSM 2).map
    (fun s => (s.pivots, (List.range 3).map s.basis.readRow)) =
    some ([2, 3], [some [(1, -3)], some [(1, 1)], some [(2, 1)]]) := by decide +kernel

example : (smake1d 7 [0, 3, 5]).map (fun s => (s.1.pivots, s.2)) = some ([2], 3) := by decide +kernel

end Eclib.Elim
