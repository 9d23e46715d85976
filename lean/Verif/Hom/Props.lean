import Verif.Hom.Count
import Verif.Hom.Spec
import Verif.Elim.SubProps
import Verif.Small.XmodProps
import Mathlib.LinearAlgebra.Matrix.InvariantBasisNumber

/-!
# C74: coordinates of M-symbols

For a prime `q > 3` the coordinate vectors computed by the constructor of `homspace` are the universal
solution modulo `q` of the relations between M-symbols.
-/

set_option linter.unusedSectionVars false

namespace Eclib.Hom

open Symb (Symbdata SymbOK)
open Symb.SymbSpec
open Svec (T SV)
open Smat (SM Rep)
open Smat.Props (SRep)
open Elim (mq InSpan SubOk RrefOk SparseOk)
open Matrix

namespace ManinSpec

/-- The vectors `x c d` of dimension `k` are coordinates modulo `q` with respect to the symbols `gen j`:
every linear form in them is a function with the relations, every function `φ` with the relations is
the linear form with coefficients `φ (gen j)`, and the symbol `gen j` has the `j`-th unit vector. -/
structure IsCoords (q : ℕ) [Fact q.Prime] (N pf : ℤ) {k : ℕ} (x : ℤ → ℤ → Fin k → ℤ) (gen : Fin k → ℤ × ℤ) : Prop where
  unimod : ∀ j, Unimod N (gen j).1 (gen j).2
  form : ∀ w : Fin k → ZMod q, IsManin N pf fun c d => ∑ j, ((x c d j : ℤ) : ZMod q) * w j
  all : ∀ φ : ℤ → ℤ → ZMod q, IsManin N pf φ → ∀ {c d : ℤ}, Unimod N c d →
    φ c d = ∑ j, ((x c d j : ℤ) : ZMod q) * φ (gen j).1 (gen j).2
  unit : ∀ i j, ((x (gen i).1 (gen i).2 j : ℤ) : ZMod q) = if i = j then 1 else 0

end ManinSpec

open ManinSpec

section core

variable {q : ℕ} [hqp : Fact q.Prime] {N : ℤ} (hN : 1 < N) {S : Symbdata} (hS : SymbOK N S) {pf : ℤ}

theorem Inv2.bound {n : ℕ} {s r : ℕ → ℕ} {st : Two} (hv : Invol n s r) (hi : Inv2 n s r st n) {i : ℕ} (h : i < n) :
    |st.ci.getD i 0| ≤ st.gens.length := by
  have hp : ∀ i < n, 0 < st.ci.getD i 0 → st.ci.getD i 0 ≤ st.gens.length := by
    intro i h hpos
    obtain ⟨a, g, e1, e2, _⟩ := hi.pos i h (hi.done i h) hpos
    have := (List.getElem?_eq_some_iff.1 e2).1
    omega
  rcases lt_trichotomy (st.ci.getD i 0) 0 with hz | hz | hz
  · have e := hi.es i h (hi.done i h)
    have := hp (s i) (hv.s1 i h) (by rw [e]; omega)
    rw [abs_of_neg hz]
    omega
  · rw [hz]; simp
  · rw [abs_of_pos hz]; exact hp i h hz

theorem Inv2.ngens {n : ℕ} {s r : ℕ → ℕ} {st : Two} (hi : Inv2 n s r st n) : st.gens.length ≤ n := by
  have hg : ∀ a : Fin st.gens.length, st.gens[a] < n := fun a =>
    (hi.gen a _ (List.getElem?_eq_getElem a.2)).1
  have := Fintype.card_le_of_injective (fun a : Fin st.gens.length => (⟨st.gens[a], hg a⟩ : Fin n)) (by
    intro a b hab
    have e := Fin.mk.inj_iff.1 hab
    have h1 := (hi.gen a _ (List.getElem?_eq_getElem a.2)).2.2
    have h2 := (hi.gen b _ (List.getElem?_eq_getElem b.2)).2.2
    simp only [Fin.getElem_fin] at e
    rw [e, h2] at h1
    exact Fin.ext (by omega))
  simpa using this

include hN hS

theorem phi_R {st : Two} (hi : Inv2 (num S) (ms S) (rr S pf) st (num S)) (y : ℕ → ZMod q) (hpf : pf ≠ 0) :
    ∃ e : ZMod q, e ≠ 0 ∧ ∀ i < num S, phi st.ci y (mR S i) = e * phi st.ci y i := by
  by_cases h : pf = -1
  · refine ⟨1, one_ne_zero, fun i hin => ?_⟩
    have := (hi.rel y hin).2
    unfold rr at this
    rw [if_neg hpf, if_pos h] at this
    rw [one_mul]
    exact this
  · refine ⟨-1, neg_ne_zero.2 one_ne_zero, fun i hin => ?_⟩
    have h1 := (hi.rel y hin).2
    unfold rr at h1
    rw [if_neg hpf, if_neg h] at h1
    have h2 := (hi.rel y ((mr_spec hN hS hin).2.1)).1
    rw [ms_mr hN hS hin, h1] at h2
    unfold phi
    rw [h2]
    ring

/-- the function on M-symbols with values `y` on the generators -/
theorem isManin_phi (hpf : pf = 0 ∨ pf = 1 ∨ pf = -1) {st : Two} (hi : Inv2 (num S) (ms S) (rr S pf) st (num S))
    {y : ℕ → ZMod q} (hy : ∀ i < num S, rel3 S st.ci y i) :
    IsManin N pf (fun c d => phi st.ci y (idx S c d)) := by
  have hidx : ∀ {c d : ℤ}, Unimod N c d → idx S c d < num S := fun h => (idx_spec hN hS h).2.1
  have hsy : ∀ {c d : ℤ}, Unimod N c d → Equiv N (sy S (idx S c d)).1 (sy S (idx S c d)).2 c d :=
    fun h => (idx_spec hN hS h).2.2
  have es : ∀ {c d : ℤ}, Unimod N c d → idx S (-d) c = ms S (idx S c d) := by
    intro c d h
    obtain ⟨_, h2, h3⟩ := ms_spec hN hS (hidx h)
    refine eq_of_equiv hN hS (hidx (um_s h)) h2 (Symb.Equiv.trans (hsy (um_s h)) (Symb.Equiv.symm (Symb.Equiv.trans h3 ?_)))
    simpa using Symb.Props.Equiv.apply (hsy h) 0 (-1) 1 0
  have et : ∀ {c d : ℤ}, Unimod N c d → idx S (c - d) c = mt S (idx S c d) := by
    intro c d h
    obtain ⟨_, h2, h3⟩ := mt_spec hN hS (hidx h)
    refine eq_of_equiv hN hS (hidx (um_t h)) h2 (Symb.Equiv.trans (hsy (um_t h)) (Symb.Equiv.symm (Symb.Equiv.trans h3 ?_)))
    simpa [sub_eq_add_neg] using Symb.Props.Equiv.apply (hsy h) 1 (-1) 1 0
  have ett : ∀ {c d : ℤ}, Unimod N c d → idx S (-d) (c - d) = mt S (mt S (idx S c d)) := by
    intro c d h
    rw [← et h, ← et (um_t h)]
    congr 1
    ring
  have er : ∀ {c d : ℤ}, Unimod N c d → idx S (-c) d = mr S (idx S c d) := by
    intro c d h
    obtain ⟨_, h2, h3⟩ := mr_spec hN hS (hidx h)
    refine eq_of_equiv hN hS (hidx (um_r h)) h2 (Symb.Equiv.trans (hsy (um_r h)) (Symb.Equiv.symm (Symb.Equiv.trans h3 ?_)))
    simpa using Symb.Props.Equiv.apply (hsy h) (-1) 0 0 1
  refine ⟨fun {c d c' d'} h e => ?_, fun {c d} h => ?_, fun {c d} h => ?_, fun hpf0 {c d} h => ?_⟩
  · rw [(idx_eq_iff hN hS h (Symb.Unimod.of_equiv e h)).2 e]
  · unfold phi
    rw [es h, (hi.rel y (hidx h)).1]
    ring
  · rw [et h, ett h]
    exact hy _ (hidx h)
  · rw [er h]
    have h1 := (hi.rel y (hidx h)).2
    unfold rr at h1
    rw [if_neg hpf0] at h1
    rcases hpf with rfl | rfl | rfl
    · exact absurd rfl hpf0
    · rw [if_neg (by decide)] at h1
      unfold phi
      rw [h1]; simp
    · rw [if_pos rfl] at h1
      have h2 := (hi.rel y ((mR_spec hN hS (hidx h)).2.1)).1
      rw [ms_mR hN hS (hidx h), h1] at h2
      unfold phi
      rw [h2]; simp

/-- a function with the relations is determined by its values on the generators, which satisfy the
3-term relations -/
theorem phi_of_isManin (hpf : pf = 0 ∨ pf = 1 ∨ pf = -1) (hq : 3 < q) {st : Two}
    (hi : Inv2 (num S) (ms S) (rr S pf) st (num S)) {φ : ℤ → ℤ → ZMod q} (hφ : IsManin N pf φ) :
    (∀ i < num S, φ (sy S i).1 (sy S i).2 =
      phi st.ci (fun a => φ (sy S (st.gens.getD a 0)).1 (sy S (st.gens.getD a 0)).2) i) ∧
    ∀ i < num S, rel3 S st.ci (fun a => φ (sy S (st.gens.getD a 0)).1 (sy S (st.gens.getD a 0)).2) i := by
  have hu : ∀ {i}, i < num S → Unimod N (sy S i).1 (sy S i).2 := fun h => (sy_spec hN hS h).2.1
  have hs : ∀ i < num S, φ (sy S (ms S i)).1 (sy S (ms S i)).2 = -φ (sy S i).1 (sy S i).2 := by
    intro i h
    obtain ⟨_, h2, h3⟩ := ms_spec hN hS h
    rw [hφ.equiv (hu h2) h3]
    linear_combination hφ.two (hu h)
  have hrr : ∀ i < num S, φ (sy S (rr S pf i)).1 (sy S (rr S pf i)).2 = φ (sy S i).1 (sy S i).2 := by
    intro i h
    unfold rr
    rcases hpf with rfl | rfl | rfl
    · rw [if_pos rfl]
    · rw [if_neg (by decide), if_neg (by decide)]
      obtain ⟨_, h2, h3⟩ := mr_spec hN hS h
      rw [hφ.equiv (hu h2) h3, hφ.sign (by decide) (hu h)]
      simp
    · rw [if_neg (by decide), if_pos rfl]
      obtain ⟨_, h2, h3⟩ := mr_spec hN hS h
      obtain ⟨_, k2, k3⟩ := mR_spec hN hS h
      have h4 := hs _ k2
      rw [ms_mR hN hS h, hφ.equiv (hu h2) h3, hφ.sign (by decide) (hu h)] at h4
      push_cast at h4
      linear_combination h4
  have h2 : (2 : ZMod q) ≠ 0 := by
    intro h
    have : ((2 : ℕ) : ZMod q) = 0 := by exact_mod_cast h
    rw [ZMod.natCast_eq_zero_iff] at this
    have := Nat.le_of_dvd (by norm_num) this
    omega
  have hdet : ∀ i < num S, φ (sy S i).1 (sy S i).2 =
      phi st.ci (fun a => φ (sy S (st.gens.getD a 0)).1 (sy S (st.gens.getD a 0)).2) i := fun i h =>
    hi.determined (invol hN hS pf) h2 (f := fun i => φ (sy S i).1 (sy S i).2) hs hrr h
  refine ⟨hdet, fun i h => ?_⟩
  obtain ⟨_, h2, h3⟩ := mt_spec hN hS h
  obtain ⟨h4, h5⟩ := mt_mt hN hS h
  unfold rel3
  rw [← hdet i h, ← hdet _ h2, ← hdet _ h4, hφ.equiv (hu h2) h3, hφ.equiv (hu h4) h5]
  exact hφ.three (hu h)

/-- the coordinates of the symbol with signed generator number `z` -/
def coord {g k : ℕ} (B : Matrix (Fin g) (Fin k) ℤ) (z : ℤ) (j : Fin k) : ℤ :=
  if h : 0 < z ∧ z.toNat - 1 < g then B ⟨z.toNat - 1, h.2⟩ j
  else if h : z < 0 ∧ (-z).toNat - 1 < g then -B ⟨(-z).toNat - 1, h.2⟩ j else 0

omit hN hS in
theorem coord_spec {g k : ℕ} (B : Matrix (Fin g) (Fin k) ℤ) {z : ℤ} (hz : |z| ≤ g) {y : ℕ → ZMod q} {w : Fin k → ZMod q}
    (hy : ∀ a : Fin g, y a = (mq q B *ᵥ w) a) : ∑ j, ((coord B z j : ℤ) : ZMod q) * w j = sval y z := by
  rw [abs_le] at hz
  rcases lt_trichotomy z 0 with h | rfl | h
  · unfold sval
    rw [if_neg (by omega), if_pos h, hy ⟨(-z).toNat - 1, by omega⟩]
    unfold mulVec dotProduct
    rw [← Finset.sum_neg_distrib]
    apply Finset.sum_congr rfl
    intro j _
    unfold coord
    rw [dif_neg (by omega), dif_pos ⟨h, by omega⟩]
    unfold mq
    simp
  · rw [sval_zero]
    apply Finset.sum_eq_zero
    intro j _
    unfold coord
    rw [dif_neg (by omega), dif_neg (by omega)]
    simp
  · unfold sval
    rw [if_pos h, hy ⟨z.toNat - 1, by omega⟩]
    unfold mulVec dotProduct
    apply Finset.sum_congr rfl
    intro j _
    unfold coord
    rw [dif_pos ⟨h, by omega⟩]
    unfold mq
    simp

omit hN hS in
theorem rows_spec {g k : ℕ} {m : SM} {B : Matrix (Fin g) (Fin k) ℤ} (h : Rep True m B) :
    ∃ vecs, ((List.range g).mapM fun i => Smat.row m (i + 1)) = some vecs ∧ vecs.length = g ∧
      ∀ i : Fin g, ∃ v, vecs[(i : ℕ)]? = some v ∧ SRep True v (B i) := by
  have key : ∀ l ≤ g, ∃ vecs, ((List.range l).mapM fun i => Smat.row m (i + 1)) = some vecs ∧ vecs.length = l ∧
      ∀ i : Fin g, (i : ℕ) < l → ∃ v, vecs[(i : ℕ)]? = some v ∧ SRep True v (B i) := by
    intro l
    induction l with
    | zero => exact fun _ => ⟨[], rfl, rfl, fun i hi => absurd hi (Nat.not_lt_zero _)⟩
    | succ l ih =>
      intro hl
      obtain ⟨vecs, e, h1, h2⟩ := ih (by omega)
      obtain ⟨v, ev, hv⟩ := Smat.Props.C47_row h ⟨l, by omega⟩
      refine ⟨vecs ++ [v], ?_, by simp [h1], fun i hi => ?_⟩
      · rw [List.range_succ, List.mapM_append, e]
        simp only at ev
        simp [ev]
      · by_cases hil : (i : ℕ) < l
        · obtain ⟨v', e', h'⟩ := h2 i hil
          exact ⟨v', by rw [List.getElem?_append_left (by omega)]; exact e', h'⟩
        · have : i = ⟨l, by omega⟩ := Fin.ext (by simp; omega)
          rw [this]
          refine ⟨v, ?_, hv⟩
          simp only
          rw [List.getElem?_append_right (by omega), h1]
          simp
  obtain ⟨vecs, e, h1, h2⟩ := key g le_rfl
  exact ⟨vecs, e, h1, fun i => h2 i i.2⟩

omit hN hS in
theorem free_spec {g k : ℕ} {gens : List ℕ} (hg : gens.length = g) (piv : Fin k → Fin g) :
    ((List.ofFn fun i => (piv i : ℕ) + 1).mapM fun i => if i = 0 then none else gens[i - 1]?) =
      some (List.ofFn fun i => gens.getD (piv i) 0) := by
  rw [List.ofFn_eq_map, List.ofFn_eq_map]
  have : ∀ l : List (Fin k), ((l.map fun i => (piv i : ℕ) + 1).mapM fun i => if i = 0 then none else gens[i - 1]?) =
      some (l.map fun i => gens.getD (piv i) 0) := by
    intro l
    induction l with
    | nil => rfl
    | cons a l ih =>
      rw [List.map_cons, List.mapM_cons, ih]
      have : (piv a : ℕ) < gens.length := by rw [hg]; exact (piv a).2
      simp [List.getElem?_eq_getElem this]
  exact this _

/-- the constructor, for a level with the data of `symbdata` -/
theorem make_spec (hpf : pf = 0 ∨ pf = 1 ∨ pf = -1) (hq : 3 < q) (X : Marith.XGcd) (t : T) {sparse : Elim.St → Bool}
    (hsp : SparseOk sparse) {rref : Mat.M → Mat.Ech} (hRr : RrefOk q rref) {fuel : ℕ}
    (hf : (num S + 11) * (2 * num S + 11) ≤ fuel) :
    ∃ H th, make X t q sparse rref fuel S pf = some (H, th) ∧ H.S = S ∧ H.pf = pf ∧ H.free.length = H.rk ∧
      th.numrel ≤ H.vecs.length + 1 ∧ (∃ x gen, IsCoords q N pf (k := H.rk) x gen ∧
        (∀ {c d : ℤ}, Unimod N c d → ∃ v, H.coordsCd c d = some v ∧ SRep True v (x c d) ∧ ∀ j, 2 * |x c d j| ≤ q) ∧
        ∀ j : Fin H.rk, ∃ i : ℕ, H.free[(j : ℕ)]? = some i ∧ S.symbol i = some (gen j)) := by
  obtain ⟨two, e1, i2⟩ := twoTerm_spec hN hS pf
  have hv := invol hN hS pf
  have hb : ∀ i < num S, |two.ci.getD i 0| ≤ two.gens.length := fun i h => i2.bound hv h
  have hR : ∀ y : ℕ → ZMod q, pf ≠ 0 → ∃ e : ZMod q, e ≠ 0 ∧ ∀ i < num S, phi two.ci y (mR S i) = e * phi two.ci y i :=
    fun y h => phi_R hN hS i2 y h
  obtain ⟨th, e2, i3⟩ := threeTerm_spec hN hS hq i2.li hb hR t
  have hbd : th.numrel ≤ two.gens.length + 1 := by
    obtain ⟨ks, hk1, hk2, _⟩ := i3.reps
    rw [← hk1]
    exact reps_bound hN hS i2 hk2
  have hfits : th.fits two.gens.length := by
    unfold Three.fits
    omega
  obtain ⟨A, hA, hA3, _, hAr⟩ := i3.rep
  have hg := i2.ngens
  obtain ⟨sp, k, B, piv, e3, hsub, hker⟩ := Elim.C73_kernel (q := q) X t hA
    (fun i j => lt_of_le_of_lt (hA3 i j) (by exact_mod_cast hq)) hsp hRr (fuel := fuel) (by
      refine le_trans ?_ hf
      apply Nat.mul_le_mul <;> omega)
  obtain ⟨vecs, e4, hvl, hvec⟩ := rows_spec hsub.rep
  have e5 := free_spec (gens := two.gens) rfl piv
  have hnco : sp.basis.nco = k := hsub.rep.nco
  subst hnco
  refine ⟨⟨S, pf, two.ci, vecs, sp.basis.nco, List.ofFn fun i => two.gens.getD (piv i) 0⟩, th, ?_, rfl, rfl, by simp, ?_, ?_⟩
  · unfold make
    rw [e1, Option.bind_some, e2, Option.bind_some, e3, Option.bind_some, e4, Option.bind_some, hsub.pivots, e5]
    rfl
  · rw [hvl]
    exact hbd
  -- vectors in the kernel
  have hk : ∀ y : ℕ → ZMod q, (∀ i < num S, rel3 S two.ci y i) ↔ InSpan q B (fun a => y a) := by
    intro y
    rw [hker]
    have := hAr hfits y
    constructor
    · intro h
      funext i
      exact this.2 (fun i hi _ => h i hi) i
    · intro h i hi
      exact this.1 (fun i => congrFun h i) i hi (i3.done i hi)
  have hgen : ∀ a : Fin two.gens.length, two.gens.getD a 0 < num S ∧ two.ci.getD (two.gens.getD a 0) 0 = (a : ℕ) + 1 := by
    intro a
    rw [List.getD_eq_getElem _ _ a.2]
    have := i2.gen a _ (List.getElem?_eq_getElem a.2)
    exact ⟨this.1, this.2.2⟩
  have hext : ∀ w : Fin sp.basis.nco → ZMod q, ∃ y : ℕ → ZMod q, ∀ a : Fin two.gens.length, y a = (mq q B *ᵥ w) a := by
    intro w
    exact ⟨fun a => if h : a < two.gens.length then (mq q B *ᵥ w) ⟨a, h⟩ else 0, fun a => by simp⟩
  refine ⟨fun c d => coord B (two.ci.getD (idx S c d) 0), fun j => sy S (two.gens.getD (piv j) 0), ⟨?_, ?_, ?_, ?_⟩, ?_, ?_⟩
  · exact fun j => (sy_spec hN hS (hgen (piv j)).1).2.1
  · intro w
    obtain ⟨y, hy⟩ := hext w
    have h1 : ∀ i < num S, rel3 S two.ci y i := (hk y).2 ⟨w, funext hy⟩
    have h2 := isManin_phi hN hS hpf i2 h1
    have heq : ∀ {c d : ℤ}, Unimod N c d → ∑ j, ((coord B (two.ci.getD (idx S c d) 0) j : ℤ) : ZMod q) * w j =
        phi two.ci y (idx S c d) := fun h => coord_spec B (hb _ (idx_spec hN hS h).2.1) hy
    exact h2.congr heq
  · intro φ hφ c d hu
    obtain ⟨h1, h2⟩ := phi_of_isManin hN hS hpf hq i2 hφ
    obtain ⟨w, hw⟩ := (hk _).1 h2
    obtain ⟨k1, k2, k3⟩ := idx_spec hN hS hu
    rw [← hφ.equiv (sy_spec hN hS k2).2.1 k3, h1 _ k2]
    unfold phi
    rw [← coord_spec B (hb _ k2) (fun a => congrFun hw a)]
    apply Finset.sum_congr rfl
    intro j _
    congr 1
    have h3 := congrFun hw (piv j)
    have h5 : ((mq q B).submatrix piv id *ᵥ w) j = w j := by rw [hsub.unit, one_mulVec]
    exact h5.symm.trans h3.symm
  · intro i j
    have hx := (hgen (piv i))
    rw [(sy_spec hN hS hx.1).2.2, hx.2]
    have := congrFun (congrFun hsub.unit i) j
    rw [Matrix.one_apply] at this
    rw [← this]
    unfold coord
    rw [dif_pos ⟨by omega, by simp⟩]
    simp [mq]
  · intro c d hu
    obtain ⟨k1, k2, k3⟩ := idx_spec hN hS hu
    unfold Space.coordsCd Space.fromIndex
    simp only
    rw [k1, Option.bind_some, getAt_nat (by rw [i2.li]; exact k2), Option.bind_some]
    have hz := hb _ k2
    generalize two.ci.getD (idx S c d) 0 = z at hz
    rw [abs_le] at hz
    have hl : ∀ i j, 2 * |B i j| ≤ q := by
      intro i j
      have := hsub.least i j
      unfold Smat.Props.Least at this
      rw [abs_of_nonneg (by positivity : (0 : ℤ) ≤ (q : ℤ))] at this
      rcases abs_cases (B i j) with ⟨h, _⟩ | ⟨h, _⟩ <;> rw [h] <;> omega
    rcases lt_trichotomy z 0 with h | rfl | h
    · rw [if_neg (by omega), if_pos h]
      obtain ⟨v, ev, hv'⟩ := hvec ⟨(-z).toNat - 1, by omega⟩
      have ec : coord B z = (-1 : ℤ) • B ⟨(-z).toNat - 1, by omega⟩ := by
        funext j
        unfold coord
        rw [dif_neg (by omega), dif_pos ⟨h, by omega⟩]
        simp
      refine ⟨Svec.neg v, ?_, ?_, fun j => ?_⟩
      · simp only at ev
        rw [ev]
        rfl
      · rw [ec]
        exact Smat.Props.srep_imul hv' (-1) (fun _ => by norm_num)
      · rw [ec]
        simp only [Pi.smul_apply, smul_eq_mul, neg_mul, one_mul, abs_neg]
        exact hl _ j
    · rw [if_neg (by omega), if_neg (by omega)]
      have ec : coord B (0 : ℤ) = 0 := by
        funext j
        unfold coord
        rw [dif_neg (by omega), dif_neg (by omega)]
        rfl
      exact ⟨_, rfl, by rw [ec]; exact Smat.Props.srep_zero _, fun j => by rw [ec]; simp⟩
    · rw [if_pos h]
      obtain ⟨v, ev, hv'⟩ := hvec ⟨z.toNat - 1, by omega⟩
      have ec : coord B z = B ⟨z.toNat - 1, by omega⟩ := by
        funext j
        unfold coord
        rw [dif_pos ⟨h, by omega⟩]
      exact ⟨v, ev, by rw [ec]; exact hv', fun j => by rw [ec]; exact hl _ j⟩
  · intro j
    refine ⟨two.gens.getD (piv j) 0, ?_, (sy_spec hN hS (hgen (piv j)).1).1⟩
    rw [List.getElem?_ofFn, dif_pos j.2]

end core

/-- the dimension does not depend on the coordinates -/
theorem dim_unique {q : ℕ} [Fact q.Prime] {N pf : ℤ} {k k' : ℕ} {x : ℤ → ℤ → Fin k → ℤ} {gen : Fin k → ℤ × ℤ}
    {x' : ℤ → ℤ → Fin k' → ℤ} {gen' : Fin k' → ℤ × ℤ} (h : IsCoords q N pf x gen) (h' : IsCoords q N pf x' gen') : k = k' := by
  have key : ∀ {k k' : ℕ} {x : ℤ → ℤ → Fin k → ℤ} {gen : Fin k → ℤ × ℤ} {x' : ℤ → ℤ → Fin k' → ℤ} {gen' : Fin k' → ℤ × ℤ},
      IsCoords q N pf x gen → IsCoords q N pf x' gen' →
      (Matrix.of fun l i => ((x (gen' l).1 (gen' l).2 i : ℤ) : ZMod q)) *
        (Matrix.of fun i j => ((x' (gen i).1 (gen i).2 j : ℤ) : ZMod q)) = 1 := by
    intro k k' x gen x' gen' h h'
    ext l j
    have h1 := h.all _ (h'.form (Pi.single j 1)) (h'.unimod l)
    simp only [Pi.single_apply, mul_ite, mul_one, mul_zero, Finset.sum_ite_eq', Finset.mem_univ, if_true] at h1
    rw [Matrix.mul_apply, Matrix.one_apply, ← h'.unit l j, h1]
    rfl
  simpa using Matrix.square_of_invertible _ _ (key h' h) (key h h')

/-- **C74.**  The constructor computes coordinates modulo the prime `q`: no access outside a vector, and
for every M-symbol `(c:d)` the vector `coords_cd(c,d)`; `freegens` are the symbols with unit vectors. -/
theorem C74_coords {q : ℕ} [Fact q.Prime] {N : ℤ} (hN : 1 < N) {ps : List ℤ} (hps : Spec.IsPrimeDivisorList N ps)
    {S : Symbdata} (hS : Symbdata.make N ps = some S) {pf : ℤ} (hpf : pf = 0 ∨ pf = 1 ∨ pf = -1) (hq : 3 < q)
    (X : Marith.XGcd) (t : T) {sparse : Elim.St → Bool} (hsp : SparseOk sparse) {rref : Mat.M → Mat.Ech}
    (hRr : RrefOk q rref) {fuel : ℕ} (hf : (S.nsymb.toNat + 11) * (2 * S.nsymb.toNat + 11) ≤ fuel) :
    ∃ H th, make X t q sparse rref fuel S pf = some (H, th) ∧ H.free.length = H.rk ∧
      ∃ x gen, IsCoords q N pf (k := H.rk) x gen ∧
        (∀ {c d : ℤ}, Unimod N c d → ∃ v, H.coordsCd c d = some v ∧ SRep True v (x c d) ∧ ∀ j, 2 * |x c d j| ≤ q) ∧
        ∀ j : Fin H.rk, ∃ i : ℕ, H.free[(j : ℕ)]? = some i ∧ S.symbol i = some (gen j) := by
  obtain ⟨H, th, e, -, -, h1, -, h2⟩ := make_spec hN (Symb.Props.ok_of_make hN hps hS) hpf hq X t hsp hRr hf
  exact ⟨H, th, e, h1, h2⟩

/-- **C75.**  The message "Too many 3-term relations" is not printed: the number of non-trivial
relations is at most one more than the number of generators, so that the matrix with `ngens+10` rows
holds them. -/
theorem C75_numrel {N : ℤ} (hN : 1 < N) {ps : List ℤ} (hps : Spec.IsPrimeDivisorList N ps)
    {S : Symbdata} (hS : Symbdata.make N ps = some S) (pf : ℤ) (t : T) {two : Two} {th : Three}
    (h2 : twoTerm S pf = some two) (h3 : threeTerm t S pf two.ci two.gens.length = some th) :
    th.numrel ≤ two.gens.length + 1 ∧ th.fits two.gens.length := by
  have hok := Symb.Props.ok_of_make hN hps hS
  have : Fact (Nat.Prime 5) := ⟨by norm_num⟩
  obtain ⟨two', e1, i2⟩ := twoTerm_spec hN hok pf
  rw [h2] at e1
  obtain rfl := Option.some.inj e1
  obtain ⟨th', e2, i3⟩ := threeTerm_spec (q := 5) hN hok (by norm_num) i2.li (fun i h => i2.bound (invol hN hok pf) h)
    (fun y h => phi_R hN hok i2 y h) t
  rw [h3] at e2
  obtain rfl := Option.some.inj e2
  obtain ⟨ks, hk1, hk2, _⟩ := i3.reps
  have := reps_bound hN hok i2 hk2
  unfold Three.fits
  omega

/-! ### examples -/

theorem ps11 : Spec.IsPrimeDivisorList 11 [11] := by
  have h11 : Prime (11 : ℤ) := Int.prime_iff_natAbs_prime.2 (by norm_num)
  refine ⟨by decide, fun p => ⟨fun h => ?_, fun h => ?_⟩⟩
  · obtain rfl : p = 11 := by simpa using h
    exact ⟨by norm_num, h11, dvd_rfl⟩
  · have := (Prime.associated_of_dvd h.2.1 h11 h.2.2)
    rw [Int.associated_iff_natAbs] at this
    have : p = 11 := by omega
    simp [this]

/-- the hypotheses of C74 are met at the level 11 with the modulus of the code -/
example : ∃ S H th, Symbdata.make 11 [11] = some S ∧
    make Marith.Props.xgcd0 .int (1073741789 : ℕ) (fun _ => true) (Mat.echmodp Marith.Props.xgcd0 .int (1073741789 : ℕ))
      ((S.nsymb.toNat + 11) * (2 * S.nsymb.toNat + 11)) S 1 = some (H, th) ∧ H.free.length = H.rk := by
  have : Fact (Nat.Prime 1073741789) := ⟨Xmod.Props.P_prime⟩
  obtain ⟨S, hS, _⟩ := Symb.specials_spec (by norm_num) ps11
  obtain ⟨H, th, h, h', _⟩ := C74_coords (q := 1073741789) (by norm_num) ps11 hS (pf := 1) (by norm_num) (by norm_num)
    Marith.Props.xgcd0 .int (sparse := fun _ => true) (fun _ _ => rfl) (Elim.rrefOk_echmodp _ .int) le_rfl
  exact ⟨S, H, th, hS, h, h'⟩

/-- at level 11 with sign + there are three generators, one relation, and dimension 2 -/
example : ((Symbdata.make 11 [11]).bind fun S =>
      make Marith.Props.xgcd0 .int 7 (fun _ => true) (Mat.echmodp Marith.Props.xgcd0 .int 7) 805 S 1).map
    (fun r => (r.1.rk, r.1.free, r.2.numrel, r.1.vecs.length)) = some (2, [0, 3], 1, 3) := by decide +kernel

/-- without sign the coordinates of four symbols, of which the last two are the same -/
example : (((Symbdata.make 11 [11]).bind fun S =>
      make Marith.Props.xgcd0 .int 7 (fun _ => true) (Mat.echmodp Marith.Props.xgcd0 .int 7) 805 S 0).bind
    fun r => ([(1, 0), (1, 3), (1, 5), (3, 15)] : List (ℤ × ℤ)).mapM fun s => r.1.coordsCd s.1 s.2) =
    some [⟨3, [(1, -1)]⟩, ⟨3, [(3, 1)]⟩, ⟨3, [(2, 1), (3, -1)]⟩, ⟨3, [(2, 1), (3, -1)]⟩] := by decide +kernel

end Eclib.Hom
