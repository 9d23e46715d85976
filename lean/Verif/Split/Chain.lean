import Verif.Split.Model
import Verif.Elim.SubProps
import Mathlib.LinearAlgebra.FiniteDimensional.Lemmas
import Mathlib.LinearAlgebra.Matrix.ToLin

/-!
# The nested subspaces of `form_finder`
-/

namespace Eclib.Split

set_option linter.unusedSectionVars false

open Svec (T)
open Smat (SM Rep)
open Smat.Props (RedMat Least)
open Elim (SSub SubOk mq mq_mul mq_of_cong InSpan SparseOk RrefOk least_abs red_of_abs redMat_of_val)
open Matrix Module

variable {q : ℕ} [hq : Fact q.Prime] {n : ℕ}

/-! ## Specification -/

namespace Spec

/-- the common eigenspace of the operators `A 0`, `A 1`, … for the eigenvalues `d·e` -/
def E (q : ℕ) {n : ℕ} (A : ℤ → Matrix (Fin n) (Fin n) ℤ) (d : ℤ) (e : List ℤ) : Submodule (ZMod q) (Fin n → ZMod q) where
  carrier := {v | ∀ (i : ℕ) (h : i < e.length), mq q (A i) *ᵥ v = ((e[i] * d : ℤ) : ZMod q) • v}
  add_mem' := by
    intro a b ha hb i h
    rw [mulVec_add, ha i h, hb i h, smul_add]
  zero_mem' := by
    intro i h
    rw [mulVec_zero, smul_zero]
  smul_mem' := by
    intro c v hv i h
    rw [mulVec_smul, hv i h, smul_comm]

/-- the eigenspace of the operator number `-1` (conjugation) for `c` -/
def K (q : ℕ) {n : ℕ} (A : ℤ → Matrix (Fin n) (Fin n) ℤ) (c : ℤ) : Submodule (ZMod q) (Fin n → ZMod q) where
  carrier := {v | mq q (A (-1)) *ᵥ v = (c : ZMod q) • v}
  add_mem' := by
    intro a b ha hb
    simp only [Set.mem_ofPred_eq] at *
    rw [mulVec_add, ha, hb, smul_add]
  zero_mem' := by
    simp only [Set.mem_ofPred_eq, mulVec_zero, smul_zero]
  smul_mem' := by
    intro c v hv
    simp only [Set.mem_ofPred_eq] at *
    rw [mulVec_smul, hv, smul_comm]

/-- What is supposed of the operators: `s_opmat` gives the matrix of the operator and `s_opmat_cols` some of its rows; the operators commute
modulo the prime; the elimination has fuel.  With `int` scalars and the large prime the entries must be reduced. -/
structure Ok (q : ℕ) [Fact q.Prime] {n : ℕ} (F : Finder) (A : ℤ → Matrix (Fin n) (Fin n) ℤ) : Prop where
  p : F.p = q
  dimen : F.dimen = n
  sparse : SparseOk F.sparse
  rref : RrefOk q F.rref
  fuel : (n + 1) * (n + n + 1) ≤ F.fuel
  opmat0 : ∃ m, F.opmat0 = some m ∧ Rep True m (A 0)
  cols : ∀ (i : ℤ) (k : ℕ) (p : Fin k → Fin n), ∃ m, F.opmatCols i (List.ofFn fun j => (p j : ℕ) + 1) = some m ∧
    Rep True m ((A i).submatrix p id)
  red : ∀ i a b, Svec.Props.Red F.t q (A i a b)
  comm : ∀ i j, mq q (A i) * mq q (A j) = mq q (A j) * mq q (A i)

end Spec

open Eclib.Split.Spec

/-! ## Chains of subspaces -/

/-- a chain of relative subspaces, with the basis matrix of the deepest one in the whole space and its pivots -/
inductive Chain (q n : ℕ) : List SSub → (k : ℕ) → Matrix (Fin n) (Fin k) (ZMod q) → (Fin k → Fin n) → Prop
  | nil : Chain q n [] n 1 id
  | cons {l k M piv s k'} {B : Matrix (Fin k) (Fin k') ℤ} {p : Fin k' → Fin k} :
    Chain q n l k M piv → SubOk q s B p → Chain q n (s :: l) k' (M * mq q B) (piv ∘ p)

theorem Chain.unit {l : List SSub} {k : ℕ} {M : Matrix (Fin n) (Fin k) (ZMod q)} {piv : Fin k → Fin n} (h : Chain q n l k M piv) :
    M.submatrix piv id = 1 := by
  induction h with
  | nil => exact Matrix.submatrix_id_id 1
  | cons h1 h2 ih =>
    rename_i l k M piv s k' B p
    have e1 : (M * mq q B).submatrix (piv ∘ p) id = (M.submatrix piv id * mq q B).submatrix p id := by
      ext i j; rfl
    rw [e1, ih, Matrix.one_mul, h2.unit]

theorem Chain.mono {l : List SSub} {k : ℕ} {M : Matrix (Fin n) (Fin k) (ZMod q)} {piv : Fin k → Fin n} (h : Chain q n l k M piv) :
    StrictMono piv := by
  induction h with
  | nil => exact strictMono_id
  | cons _ h2 ih => exact ih.comp h2.mono

theorem Chain.le {l : List SSub} {k : ℕ} {M : Matrix (Fin n) (Fin k) (ZMod q)} {piv : Fin k → Fin n} (h : Chain q n l k M piv) : k ≤ n := by
  have := Fintype.card_le_of_injective piv h.mono.injective
  simpa using this

theorem Chain.inj {l : List SSub} {k : ℕ} {M : Matrix (Fin n) (Fin k) (ZMod q)} {piv : Fin k → Fin n} (h : Chain q n l k M piv) :
    Function.Injective (Matrix.mulVecLin M) := by
  intro x y hxy
  have e : ∀ x : Fin k → ZMod q, (M.submatrix piv id) *ᵥ x = fun i => (M *ᵥ x) (piv i) := fun x => rfl
  have h1 := e x
  have h2 := e y
  rw [h.unit, one_mulVec] at h1 h2
  rw [h1, h2]
  simp only [mulVecLin_apply] at hxy
  rw [hxy]

/-- the space spanned by the columns of a matrix -/
abbrev Rg {k : ℕ} (M : Matrix (Fin n) (Fin k) (ZMod q)) : Submodule (ZMod q) (Fin n → ZMod q) := LinearMap.range (Matrix.mulVecLin M)

theorem Chain.finrank {l : List SSub} {k : ℕ} {M : Matrix (Fin n) (Fin k) (ZMod q)} {piv : Fin k → Fin n} (h : Chain q n l k M piv) :
    finrank (ZMod q) (Rg M) = k := by
  rw [LinearMap.finrank_range_of_inj h.inj]
  simp

theorem pivIndex_ok {k l n : ℕ} (p1 : Fin k → Fin n) (p2 : Fin l → Fin k) :
    Elim.pivIndex (List.ofFn fun i => (p1 i : ℕ) + 1) (List.ofFn fun i => (p2 i : ℕ) + 1) = some (List.ofFn fun i => ((p1 ∘ p2) i : ℕ) + 1) := by
  unfold Elim.pivIndex
  have : ∀ L : List (Fin l), (L.map fun i => (p2 i : ℕ) + 1).mapM
      (fun i => if i = 0 then none else (List.ofFn fun i => (p1 i : ℕ) + 1)[i - 1]?) = some (L.map fun i => (p1 (p2 i) : ℕ) + 1) := by
    intro L
    induction L with
    | nil => rfl
    | cons a L ih =>
      rw [List.map_cons, List.mapM_cons, ih, if_neg (by omega), Nat.add_sub_cancel,
        List.getElem?_eq_getElem (by rw [List.length_ofFn]; exact (p2 a).2), List.getElem_ofFn]
      rfl
  have h3 := this (List.finRange l)
  rw [← List.ofFn_eq_map, ← List.ofFn_eq_map] at h3
  exact h3

theorem nest_ok {F : Finder} (hp : F.p = q) : ∀ (rest : List SSub) {s : SSub} {k0 k : ℕ} {M0 : Matrix (Fin n) (Fin k0) (ZMod q)}
    {piv0 : Fin k0 → Fin n} {B : Matrix (Fin k0) (Fin k) ℤ} {p0 : Fin k → Fin k0}, Chain q n rest k0 M0 piv0 → SubOk q s B p0 →
    ∀ {m : ℕ} (p : Fin m → Fin k) {b : SM} {Bb : Matrix (Fin k0) (Fin m) ℤ} (Y : Matrix (Fin k) (Fin m) (ZMod q)), Rep True b Bb →
    (∀ i j, Least q (Bb i j)) → mq q Bb = mq q B * Y →
    ∃ b', ∃ Bb' : Matrix (Fin n) (Fin m) ℤ, nest F (s :: rest) (List.ofFn fun i => (p i : ℕ) + 1) b =
        some (List.ofFn fun i => ((piv0 ∘ p0 ∘ p) i : ℕ) + 1, b') ∧ Rep True b' Bb' ∧ (∀ i j, Least q (Bb' i j)) ∧
      mq q Bb' = M0 * mq q B * Y
  | [], s, k0, k, M0, piv0, B, p0, hc, hs, m, p, b, Bb, Y, hb, hl, hB => by
    cases hc
    refine ⟨b, Bb, ?_, hb, hl, by rw [hB, Matrix.one_mul]⟩
    rw [nest, hs.pivots, pivIndex_ok, Option.bind_some]
    rfl
  | s' :: rest, s, k0, k, M0, piv0, B, p0, hc, hs, m, p, b, Bb, Y, hb, hl, hB => by
    cases hc with
    | cons hc hs' =>
      rename_i k1 M1 piv1 B' p'
      have hq0 : (q : ℤ) ≠ 0 := by exact_mod_cast hq.out.ne_zero
      obtain ⟨b1, C, e, hC, hcc⟩ := Smat.Props.C47_mulMod F.t (q : ℤ) hq0 hs'.rep hb
        (redMat_of_val hs'.rep fun i j => red_of_abs (least_abs (hs'.least i j)))
        (redMat_of_val hb fun i j => red_of_abs (least_abs (hl i j)))
      have hmul : mq q C = mq q B' * (mq q B * Y) := by rw [mq_of_cong (fun i j => (hcc i j).1), mq_mul, hB]
      obtain ⟨b2, D, e2, h2, h3, h4⟩ := nest_ok hp rest hc hs' (p0 ∘ p) (mq q B * Y) hC (fun i j => (hcc i j).2) hmul
      refine ⟨b2, D, ?_, h2, h3, by rw [h4]; simp only [Matrix.mul_assoc]⟩
      rw [nest, hs.pivots, pivIndex_ok, Option.bind_some]
      simp only [hp]
      rw [e, Option.bind_some, e2]
      rfl

/-- the matrix of an operator on the deepest space of the chain -/
theorem nested_ok {F : Finder} {A : ℤ → Matrix (Fin n) (Fin n) ℤ} (h : Ok q F A) (ip : ℤ) {s : SSub} {rest : List SSub} {k : ℕ}
    {M : Matrix (Fin n) (Fin k) (ZMod q)} {piv : Fin k → Fin n} (hc : Chain q n (s :: rest) k M piv)
    (hinv : ∀ v ∈ Rg M, mq q (A ip) *ᵥ v ∈ Rg M) :
    ∃ m, ∃ C : Matrix (Fin k) (Fin k) ℤ, nestedSubmat F ip (s :: rest) k = some m ∧ Rep True m C ∧ mq q (A ip) * M = M * mq q C := by
  have hq0 : (q : ℤ) ≠ 0 := by exact_mod_cast hq.out.ne_zero
  have hu := hc.unit
  have hc' := hc
  cases hc with
  | cons hc hs =>
    rename_i k0 M0 piv0 B p0
    obtain ⟨b, Bb, e1, h1, h2, h3⟩ := nest_ok h.p rest hc hs (id : Fin k → Fin k) (b := s.basis) (Bb := B) (1 : Matrix (Fin k) (Fin k) (ZMod q)) hs.rep hs.least (by rw [Matrix.mul_one])
    rw [Matrix.mul_one] at h3
    obtain ⟨m, e2, hm⟩ := h.cols ip k (piv0 ∘ p0 ∘ id)
    obtain ⟨m', C, e, hC, hcc⟩ := Smat.Props.C47_mulMod F.t (q : ℤ) hq0 hm h1 (redMat_of_val hm fun i j => h.red _ _ _)
      (redMat_of_val h1 fun i j => red_of_abs (least_abs (h2 i j)))
    refine ⟨m', C, ?_, hC, ?_⟩
    · have e3 : (List.range k).map (· + 1) = List.ofFn fun i : Fin k => ((id i : Fin k) : ℕ) + 1 := by
        rw [List.ofFn_eq_map, ← List.map_coe_finRange_eq_range, List.map_map]
        rfl
      simp only [nestedSubmat]
      rw [e3, e1, Option.bind_some]
      simp only
      rw [e2, Option.bind_some, h.p, e]
    · have key : ∀ j : Fin k, ∃ x : Fin k → ZMod q, mq q (A ip) *ᵥ (M0 * mq q B).col j = (M0 * mq q B) *ᵥ x := by
        intro j
        obtain ⟨x, hx⟩ := hinv ((M0 * mq q B).col j) ⟨Pi.single j 1, by rw [mulVecLin_apply, mulVec_single_one]⟩
        exact ⟨x, by rw [← hx, mulVecLin_apply]⟩
      choose x hx using key
      have hM : mq q (A ip) * (M0 * mq q B) = (M0 * mq q B) * Matrix.of fun i j => x j i := by
        ext i j
        exact congrFun (hx j) i
      have h4 := Mat.Props.restrict_core (d := (1 : ZMod q)) (by rw [hu, one_smul]) hM
      rw [one_smul] at h4
      rw [mq_of_cong (fun i j => (hcc i j).1), mq_mul, h4, h3]
      rfl

/-- the relative eigenspace gives the eigenvectors in the deepest space -/
theorem eigen_ok {F : Finder} {A : ℤ → Matrix (Fin n) (Fin n) ℤ} (h : Ok q F A) {l : List SSub} {k : ℕ}
    {M : Matrix (Fin n) (Fin k) (ZMod q)} {piv : Fin k → Fin n} (hc : Chain q n l k M piv) {T' : Matrix (Fin n) (Fin n) ℤ} {m : SM}
    {C : Matrix (Fin k) (Fin k) ℤ} (hm : Rep True m C) (hT : mq q T' * M = M * mq q C) (c : ℤ) :
    ∃ s k', ∃ (B : Matrix (Fin k) (Fin k') ℤ) (p : Fin k' → Fin k),
      Elim.seigenspace F.X F.t F.p F.sparse F.rref F.fuel m c = some s ∧ SubOk q s B p ∧ s.basis.nco = k' ∧
      ∀ v, v ∈ Rg (M * mq q B) ↔ v ∈ Rg M ∧ mq q T' *ᵥ v = (c : ZMod q) • v := by
  have hk := hc.le
  obtain ⟨s, k', B, p, e, h1, h2⟩ := Elim.C73_eigenspace (q := q) F.X F.t hm c h.sparse h.rref
    (fuel := F.fuel) (le_trans (by nlinarith) h.fuel)
  refine ⟨s, k', B, p, by rw [h.p]; exact e, h1, h1.rep.nco, fun v => ?_⟩
  have key : ∀ y : Fin k → ZMod q, mq q T' *ᵥ (M *ᵥ y) = (c : ZMod q) • (M *ᵥ y) ↔ mq q C *ᵥ y = (c : ZMod q) • y := by
    intro y
    rw [mulVec_mulVec, hT, ← mulVec_mulVec, ← mulVec_smul]
    exact ⟨fun hh => hc.inj hh, fun hh => by rw [hh]⟩
  constructor
  · rintro ⟨x, rfl⟩
    rw [mulVecLin_apply, ← mulVec_mulVec]
    exact ⟨⟨_, rfl⟩, (key _).2 ((h2 _).1 ⟨x, rfl⟩)⟩
  · rintro ⟨⟨y, rfl⟩, hy⟩
    obtain ⟨x, hx⟩ := (h2 y).2 ((key y).1 hy)
    exact ⟨x, by rw [mulVecLin_apply, ← mulVec_mulVec, ← hx]; rfl⟩

/-! ## Vectors -/

/-- a list of integers as a vector modulo `q` -/
def vq (q n : ℕ) (w : List ℤ) : Fin n → ZMod q := fun i => ((w.getD i 0 : ℤ) : ZMod q)

theorem dot_lt (t : T) (v : Svec.SV) (w : List ℤ) {r : ℤ} (h : Svec.dotVecModP t v w q = some r) : |r| < q := by
  have hq0 : (q : ℤ) ≠ 0 := by exact_mod_cast hq.out.ne_zero
  have hpos : (0 : ℤ) < q := by exact_mod_cast hq.out.pos
  have key : ∀ (m : List (ℤ × ℤ)) (a : ℤ), |a| < q → ∀ r, m.foldl (fun r e => r.bind fun ans =>
      if 1 ≤ e.1 ∧ e.1 ≤ (w.length : Int) then
        some (Svec.smod t (ans + Svec.sxmodmul t e.2 (w.getD (e.1 - 1).toNat 0) q) q) else none) (some a) = some r → |r| < q := by
    intro m
    induction m with
    | nil =>
      intro a ha r hr
      simp only [List.foldl_nil, Option.some.injEq] at hr
      rw [← hr]
      exact ha
    | cons e m ih =>
      intro a ha r hr
      rw [List.foldl_cons, Option.bind_some] at hr
      split at hr
      · refine ih _ ?_ r hr
        obtain ⟨-, h1, h2⟩ := Svec.Props.smod_spec t (a + Svec.sxmodmul t e.2 (w.getD (e.1 - 1).toNat 0) q) q hq0
        rw [abs_of_pos hpos] at h1 h2
        rw [abs_lt]
        constructor <;> omega
      · exfalso
        have : ∀ (m : List (ℤ × ℤ)), m.foldl (fun r e => r.bind fun ans =>
            if 1 ≤ e.1 ∧ e.1 ≤ (w.length : Int) then
              some (Svec.smod t (ans + Svec.sxmodmul t e.2 (w.getD (e.1 - 1).toNat 0) q) q) else none) (none : Option ℤ) = none := by
          intro m
          induction m with
          | nil => rfl
          | cons e m ih => rw [List.foldl_cons, Option.bind_none]; exact ih
        rw [this] at hr
        exact absurd hr (by simp)
  exact key _ 0 (by simpa using hpos) r h

theorem mapM_mem {α β : Type} {f : α → Option β} : ∀ {l : List α} {w : List β}, l.mapM f = some w → ∀ y ∈ w, ∃ a ∈ l, f a = some y
  | [], w, h, y, hy => by
    simp only [List.mapM_nil, Option.pure_def, Option.some.injEq] at h
    rw [← h] at hy
    simp at hy
  | a :: l, w, h, y, hy => by
    rw [List.mapM_cons] at h
    cases ha : f a with
    | none => rw [ha] at h; exact absurd h (by simp)
    | some b =>
      cases hl : l.mapM f with
      | none => rw [ha, hl] at h; exact absurd h (by simp)
      | some w' =>
        rw [ha, hl] at h
        have hw : w = b :: w' := by simpa [eq_comm] using h
        rw [hw] at hy
        rcases List.mem_cons.1 hy with rfl | hy
        · exact ⟨a, List.mem_cons_self, ha⟩
        · obtain ⟨a', h1, h2⟩ := mapM_mem hl y hy
          exact ⟨a', List.mem_cons_of_mem _ h1, h2⟩

theorem mulVec_lt (t : T) {m : SM} {v w : List ℤ} (hl : v.length = m.nco) (h : Smat.mulVecModP t m v q = some w) : ∀ x ∈ w, |x| < q := by
  unfold Smat.mulVecModP at h
  rw [if_neg (by simpa using hl)] at h
  intro x hx
  obtain ⟨i, -, hi⟩ := mapM_mem h x hx
  cases hr : Smat.row m (i + 1) with
  | none => rw [hr] at hi; exact absurd hi (by simp)
  | some u =>
    rw [hr, Option.bind_some] at hi
    exact dot_lt t u v hi

theorem climb_ok {F : Finder} (hp : F.p = q) {l : List SSub} {k : ℕ} {M : Matrix (Fin n) (Fin k) (ZMod q)} {piv : Fin k → Fin n}
    (h : Chain q n l k M piv) : ∀ w : List ℤ, w.length = k → (∀ x ∈ w, |x| < q) →
    ∃ w', climb F l w = some w' ∧ w'.length = n ∧ vq q n w' = M *ᵥ vq q k w := by
  have hq0 : (q : ℤ) ≠ 0 := by exact_mod_cast hq.out.ne_zero
  induction h with
  | nil =>
    intro w hw _
    exact ⟨w, rfl, hw, by rw [one_mulVec]⟩
  | cons h1 h2 ih =>
    rename_i l k M piv s k' B p
    intro w hw hr
    obtain ⟨w1, e, hl1, hc⟩ := Smat.Props.C47_mulVecModP F.t (q : ℤ) hq0 h2.rep hw
      (redMat_of_val h2.rep fun i j => red_of_abs (least_abs (h2.least i j))) (fun x hx => red_of_abs (hr x hx))
    obtain ⟨w', e', hl', hv⟩ := ih w1 hl1 (mulVec_lt F.t (by rw [h2.rep.nco, hw]) e)
    refine ⟨w', by rw [climb, hp, e, Option.bind_some, e'], hl', ?_⟩
    rw [hv, ← mulVec_mulVec]
    congr 1
    funext i
    have h3 := Mat.cast_eq_of_cong (hc i)
    simp only [vq]
    rw [h3]
    simp only [mulVec, dotProduct, Smat.Props.vecOf, mq, Matrix.map_apply]
    push_cast
    rfl

theorem firstCol_ok {s : SSub} {k : ℕ} {B : Matrix (Fin k) (Fin 1) ℤ} {p : Fin 1 → Fin k} (h : SubOk q s B p) :
    ∃ v, firstCol s = some v ∧ v.length = k ∧ (∀ x ∈ v, |x| < q) ∧ vq q k v = mq q B *ᵥ fun _ => 1 := by
  obtain ⟨m, e, hm⟩ := Smat.Props.C47_asMat h.rep
  have hlen : m.rows.length = k := hm.nr
  have hget : ∀ i : Fin k, (m.rows.map fun r => r.getD 0 0).getD i 0 = B i 0 := by
    intro i
    have h1 := hm.get i 0
    rw [← h1]
    have hi : (i : ℕ) < m.rows.length := by rw [hlen]; exact i.2
    simp [Mat.M.get, List.getD, hi]
  refine ⟨_, by rw [firstCol, e, Option.map_some], by rw [List.length_map, hlen], ?_, ?_⟩
  · intro x hx
    obtain ⟨i, hi, rfl⟩ := List.getElem_of_mem hx
    have h1 := hget ⟨i, by simpa [hlen] using hi⟩
    rw [List.getD_eq_getElem?_getD, List.getElem?_eq_getElem hi, Option.getD_some] at h1
    rw [h1]
    exact least_abs (h.least _ _)
  · funext i
    simp only [vq]
    rw [hget i]
    simp [mulVec, dotProduct, mq]

end Eclib.Split
