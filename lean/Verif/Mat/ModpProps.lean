import Mathlib.Data.Fin.VecNotation
import Mathlib.Tactic.NormNum
import Verif.Mat.Modp

/-!
# Theorems about echmodp, echmodp_uptri, pkernel and oldpkernel (C17, C18)
-/

namespace Eclib.Mat

open Svec (T smod sxmod sxmodmul)
open Svec.Props (smod_spec)

namespace Props

variable {p : ℕ} [hp : Fact p.Prime]

/-- the matrix is rectangular -/
def Rect (m : M) : Prop := ∀ r ∈ m.rows, r.length = m.nc

theorem forall₂_and {α β : Type} {R S : α → β → Prop} {l : List α} {l' : List β}
    (h1 : List.Forall₂ R l l') (h2 : List.Forall₂ S l l') :
    List.Forall₂ (fun x y => R x y ∧ S x y) l l' := by
  induction h1 with
  | nil => exact List.Forall₂.nil
  | cons h _ ih =>
    cases h2 with
    | cons h' t => exact List.Forall₂.cons ⟨h, h'⟩ (ih t)

theorem forall₂_zip {α β : Type} {R : α → β → Prop} {l : List α} {l' : List β}
    (h : List.Forall₂ R l l') : ∀ e ∈ l.zip l', R e.1 e.2 := by
  intro e he
  exact (List.forall₂_iff_zip.1 h).2 he

/-- the rows after back substitution, in terms of the pivotal columns -/
theorem backSub_modp (t : T) {nc : Nat} {top : List Row} {pc : List Nat}
    (hech : IsEchelon (ZMod p) nc top pc)
    (hg : List.Forall₂ (fun row c => Good p nc row ∧ ent (ZMod p) row c = 1) top pc) :
    rowSpan (ZMod p) nc (backSub (elimp t p) (top.zip pc)) = rowSpan (ZMod p) nc top ∧
    List.Forall₂ (fun row c => Good p nc row ∧ ent (ZMod p) row c ≠ 0 ∧ (∀ k < c, ent (ZMod p) row k = 0) ∧
      ∀ c' ∈ pc, c' ≠ c → ent (ZMod p) row c' = 0) (backSub (elimp t p) (top.zip pc)) pc := by
  have hlen := hg.length_eq
  have e1 := forall₂_zip_left hlen
  have e2 := forall₂_zip_right hlen
  have hcl : Clears (ZMod p) nc (Good p nc) (fun c r => ent (ZMod p) r c = 1) (elimp t p) :=
    ⟨fun c piv row hc g1 g2 g3 _ hz => elimp_spec t hc g1 g3 g2 hz⟩
  obtain ⟨h1, h2⟩ := backSub_spec hcl (top.zip pc) (by rw [e2]; exact hech.sorted) (by
    intro rc hrc
    have a := forall₂_zip hg rc hrc
    have b := forall₂_zip hech.piv rc hrc
    exact ⟨hech.lt _ (List.of_mem_zip hrc).2, a.1, a.2, b.1, b.2⟩)
  rw [e1] at h1
  refine ⟨h1, ?_⟩
  have h3 : List.Forall₂ (fun row c => Good p nc row ∧ ent (ZMod p) row c ≠ 0 ∧
      (∀ k < c, ent (ZMod p) row k = 0) ∧ ∀ c' ∈ pc, c' ≠ c → ent (ZMod p) row c' = 0)
      (backSub (elimp t p) (top.zip pc)) ((top.zip pc).map Prod.snd) := by
    rw [List.forall₂_map_right_iff]
    refine h2.imp fun row rc h => ⟨h.1, h.2.1, h.2.2.1, fun c' hc' hne => ?_⟩
    rw [← e2] at hc'
    obtain ⟨rc', hrc', rfl⟩ := List.mem_map.1 hc'
    exact h.2.2.2 rc' hrc' hne
  rwa [e2] at h3

theorem normRow_spec (X : Marith.XGcd) (t : T) {nc c : Nat} {row : Row} (hg : Good p nc row)
    (hne : ent (ZMod p) row c ≠ 0) :
    ∃ a : ZMod p, a ≠ 0 ∧ a * ent (ZMod p) row c = 1 ∧
      ∀ k, ent (ZMod p) (normRow X t p row c) k = a * ent (ZMod p) row k := by
  have hinv := sinvmod_cast X t hne
  refine ⟨((sinvmod X t (row.getD c 0) p : ℤ) : ZMod p), ?_, ?_, fun k => ?_⟩
  · intro h0
    rw [h0, mul_zero] at hinv
    exact zero_ne_one hinv
  · rw [mul_comm]; exact hinv
  · unfold ent normRow
    simp only
    rw [getD_map_zero (f := fun x => smod t (sxmodmul t (smod t (sinvmod X t (row.getD c 0) p) p) x p) p)]
    · rw [cast_smod, cast_sxmodmul t (smod_abs_lt t _) (hg.2 k), cast_smod]
    · rw [smod_zero_iff]; exact sxmodmul_zero t (smod_abs_lt t _)

theorem forall₂_zipWith {α β γ : Type} {R : α → β → Prop} {S : γ → β → Prop} {f : α → β → γ} {l : List α}
    {l' : List β} (h : List.Forall₂ R l l') (hf : ∀ x y, R x y → S (f x y) y) :
    List.Forall₂ S (List.zipWith f l l') l' := by
  induction h with
  | nil => exact List.Forall₂.nil
  | cons h _ ih => exact List.Forall₂.cons (hf _ _ h) ih

theorem forall₂_zipWith' {α β γ : Type} {R : α → β → Prop} {S : α → γ → Prop} {f : α → β → γ} {l : List α}
    {l' : List β} (h : List.Forall₂ R l l') (hf : ∀ x y, R x y → S x (f x y)) :
    List.Forall₂ S l (List.zipWith f l l') := by
  induction h with
  | nil => exact List.Forall₂.nil
  | cons h _ ih => exact List.Forall₂.cons (hf _ _ h) ih

/-- all entries are the symmetric residues: `-p/2 < x ≤ p/2` -/
def Symmetric (p nc : ℕ) (rows : List Row) : Prop :=
  ∀ r ∈ rows, r.length = nc ∧ ∀ x ∈ r, -(p : ℤ) < 2 * x ∧ 2 * x ≤ p

/-- **C17.** `echmodp(m, pcols, npcols, rk, ny, p)` for a prime `p`: the result is in reduced row echelon
form with pivotal columns `pcols` and has the same row space over `F_p` as `m`; `npcols` lists the
other columns in order; the rank of `m` over `F_p` is the number of pivotal columns, and rank plus
nullity is the number of columns; all entries are symmetric residues. -/
theorem C17_echmodp (X : Marith.XGcd) (t : T) (m : M) (hm : Rect m) :
    let e := echmodp X t p m
    IsRREF (ZMod p) m.nc 1 e.m.rows e.pc ∧
    rowSpan (ZMod p) m.nc e.m.rows = rowSpan (ZMod p) m.nc m.rows ∧
    e.npc = nonPivots m.nc e.pc ∧
    Module.finrank (ZMod p) (rowSpan (ZMod p) m.nc m.rows) = e.pc.length ∧
    e.pc.length + e.npc.length = m.nc ∧
    Symmetric p m.nc e.m.rows := by
  obtain ⟨hE, hG⟩ := fwd_modp (echAct_ok (p := p) X t m.nc) (good_reduceModP t m hm)
  have key : ∃ B : List Row, rowSpan (ZMod p) m.nc B = rowSpan (ZMod p) m.nc m.rows ∧
      List.Forall₂ (fun row c => Good p m.nc row ∧ ent (ZMod p) row c ≠ 0 ∧ (∀ k < c, ent (ZMod p) row k = 0) ∧
        ∀ c' ∈ (echmodp X t p m).pc, c' ≠ c → ent (ZMod p) row c' = 0) B (echmodp X t p m).pc ∧
      List.Forall₂ (fun r c => ∃ r' ∈ B, ∃ a : ZMod p, a ≠ 0 ∧ ent (ZMod p) r c = 1 ∧ (∀ k < m.nc, ent (ZMod p) r k =
        a * ent (ZMod p) r' k) ∧ (∀ k < c, ent (ZMod p) r k = 0) ∧
        ∀ c' ∈ (echmodp X t p m).pc, c' ≠ c → ent (ZMod p) r c' = 0)
        (echmodp X t p m).m.rows (echmodp X t p m).pc ∧
      List.Forall₂ (fun r r' => ∃ a : ZMod p, a ≠ 0 ∧ ∀ k < m.nc, ent (ZMod p) r' k =
        a * ent (ZMod p) r k) B (echmodp X t p m).m.rows ∧
      Symmetric p m.nc (echmodp X t p m).m.rows := by
    obtain ⟨h1, h2⟩ := backSub_modp t hE.ech hG
    refine ⟨_, h1.trans (hE.span.trans (rowSpan_reduce t m)), h2, ?_⟩
    unfold echmodp
    simp only
    split_ifs with hn
    · refine ⟨?_, ?_, ?_⟩
      · refine List.Forall₂.imp (fun r c h => h) (forall₂_zipWith (S := fun r c => ∃ r' ∈ backSub (elimp t ↑p)
          ((fwd findNonzero (echAct X t ↑p) m.nc 0 ⟨[], (reduceModP t (↑p) m).rows, [], [], ()⟩).top.zip
            (fwd findNonzero (echAct X t ↑p) m.nc 0 ⟨[], (reduceModP t (↑p) m).rows, [], [], ()⟩).pc),
          ∃ a : ZMod p, a ≠ 0 ∧ ent (ZMod p) r c = 1 ∧ (∀ k < m.nc, ent (ZMod p) r k =
          a * ent (ZMod p) r' k) ∧ (∀ k < c, ent (ZMod p) r k = 0) ∧
          ∀ c' ∈ (fwd findNonzero (echAct X t ↑p) m.nc 0 ⟨[], (reduceModP t (↑p) m).rows, [], [], ()⟩).pc,
          c' ≠ c → ent (ZMod p) r c' = 0)
          (List.forall₂_iff_zip.2 ⟨h2.length_eq, fun {a b} hab =>
            (⟨(List.of_mem_zip hab).1, (List.forall₂_iff_zip.1 h2).2 hab⟩ : a ∈ _ ∧ _)⟩) ?_)
        rintro r c ⟨hmem, g, hne, hz, hz'⟩
        obtain ⟨a, ha, ha1, hk⟩ := normRow_spec X t g hne
        refine ⟨r, hmem, a, ha, by rw [hk, ha1], fun k _ => hk k, fun k hkc => ?_, fun c' hc' hne' => ?_⟩
        · rw [hk, hz k hkc, mul_zero]
        · rw [hk, hz' c' hc' hne', mul_zero]
      · refine forall₂_zipWith' h2 ?_
        rintro r c ⟨g, hne, hz, hz'⟩
        obtain ⟨a, ha, ha1, hk⟩ := normRow_spec X t g hne
        exact ⟨a, ha, fun k _ => hk k⟩
      · intro r hr
        obtain ⟨i, hi, rfl⟩ := List.mem_iff_getElem.1 hr
        rw [List.getElem_zipWith]
        have hg := ((List.forall₂_iff_get.1 h2).2 i (by simp at hi; omega) (by simp at hi; omega)).1
        refine ⟨by simpa [normRow] using hg.1, fun x hx => ?_⟩
        unfold normRow at hx
        simp only at hx
        obtain ⟨y, -, rfl⟩ := List.mem_map.1 hx
        have := smod_spec t (sxmodmul t (smod t (sinvmod X t
          (((backSub (elimp t ↑p) ((fwd findNonzero (echAct X t ↑p) m.nc 0 ⟨[], (reduceModP t (↑p) m).rows, [], [], ()⟩).top.zip
            (fwd findNonzero (echAct X t ↑p) m.nc 0 ⟨[], (reduceModP t (↑p) m).rows, [], [], ()⟩).pc))[i]'(by
              simp at hi; omega)).getD ((fwd findNonzero (echAct X t ↑p) m.nc 0
              ⟨[], (reduceModP t (↑p) m).rows, [], [], ()⟩).pc[i]'(by simp at hi; omega)) 0) p) p) y p) p pne
        rw [Nat.abs_cast] at this
        exact this.2
    · have hnil : nonPivots m.nc (fwd findNonzero (echAct X t ↑p) m.nc 0
          ⟨[], (reduceModP t (↑p) m).rows, [], [], ()⟩).pc = [] := by
        rw [← hE.npc]
        exact List.length_eq_zero_iff.1 (by omega)
      have hpc := nonPivots_nil hE.ech.sorted hE.ech.lt hnil
      have hunit : ∀ c k, k < m.nc → ent (ZMod p) (unitRow m.nc c) k = if k = c then 1 else 0 := by
        intro c k hk
        unfold ent
        rw [unitRow_get hk]
        split_ifs <;> simp
      have hsc : List.Forall₂ (fun r c => ∃ a : ZMod p, a ≠ 0 ∧ ∀ k < m.nc,
          ent (ZMod p) (unitRow m.nc c) k = a * ent (ZMod p) r k) (backSub (elimp t ↑p)
          ((fwd findNonzero (echAct X t ↑p) m.nc 0 ⟨[], (reduceModP t (↑p) m).rows, [], [], ()⟩).top.zip
            (fwd findNonzero (echAct X t ↑p) m.nc 0 ⟨[], (reduceModP t (↑p) m).rows, [], [], ()⟩).pc))
          (fwd findNonzero (echAct X t ↑p) m.nc 0 ⟨[], (reduceModP t (↑p) m).rows, [], [], ()⟩).pc := by
        refine h2.imp fun r c h => ⟨(ent (ZMod p) r c)⁻¹, inv_ne_zero h.2.1, fun k hk => ?_⟩
        rw [hunit c k hk]
        split_ifs with hkc
        · subst hkc; exact (inv_mul_cancel₀ h.2.1).symm
        · rw [h.2.2.2 k (by rw [hpc]; exact List.mem_range.2 hk) hkc, mul_zero]
      refine ⟨?_, ?_, ?_⟩
      · rw [List.forall₂_map_left_iff, List.forall₂_same]
        intro c hc
        obtain ⟨r, hr, a, ha, hk⟩ := forall₂_mem_right hsc c hc
        have hcn := hE.ech.lt c hc
        refine ⟨r, hr, a, ha, by rw [hunit c c hcn, if_pos rfl], hk, fun k hkc => ?_, fun c' hc' hne => ?_⟩
        · rw [hunit c k (hkc.trans hcn), if_neg hkc.ne]
        · rw [hunit c c' (hE.ech.lt c' hc'), if_neg hne]
      · rw [List.forall₂_map_right_iff]
        exact hsc
      · intro r hr
        obtain ⟨c, -, rfl⟩ := List.mem_map.1 hr
        refine ⟨by simp [unitRow], fun x hx => ?_⟩
        have h2p : (2 : ℤ) ≤ p := by exact_mod_cast hp.out.two_le
        unfold unitRow at hx
        obtain ⟨j, -, rfl⟩ := List.mem_map.1 hx
        split_ifs <;> constructor <;> omega
  obtain ⟨B, hB, -, hR, hsc, hsym⟩ := key
  have hrref : IsRREF (ZMod p) m.nc 1 (echmodp X t p m).m.rows (echmodp X t p m).pc := by
    refine isRREF_of hE.ech.sorted hE.ech.lt (hR.imp fun r c h => ?_)
    obtain ⟨r', -, a, -, h1, -, h2, h3⟩ := h
    exact ⟨h1, h2, h3⟩
  have hspan := (rowSpan_scaled hsc).trans hB
  refine ⟨hrref, hspan, hE.npc, ?_, ?_, hsym⟩
  · rw [← hspan]; exact hrref.finrank one_ne_zero
  · have h1 : (echmodp X t p m).npc = nonPivots m.nc (echmodp X t p m).pc := hE.npc
    rw [h1]
    exact length_split hE.ech.sorted hE.ech.lt

/-- **C17 (echmodp_uptri).** The rows of `echmodp_uptri` are in echelon form with pivots 1, with the same row
space over `F_p`, pivotal columns `pcols` and other columns `npcols`. -/
theorem C17_echmodp_uptri (X : Marith.XGcd) (t : T) (m : M) (hm : Rect m) :
    let e := echmodpUptri X t p m
    IsEchelon (ZMod p) m.nc e.m.rows e.pc ∧
    rowSpan (ZMod p) m.nc e.m.rows = rowSpan (ZMod p) m.nc m.rows ∧
    e.npc = nonPivots m.nc e.pc ∧
    List.Forall₂ (fun row c => Good p m.nc row ∧ ent (ZMod p) row c = 1) e.m.rows e.pc := by
  obtain ⟨hE, hG⟩ := fwd_modp (uptriAct_ok (p := p) X t m.nc) (good_reduceModP t m hm)
  exact ⟨hE.ech, hE.span.trans (rowSpan_reduce t m), hE.npc, hG⟩

/-! ### kernels -/

/-- the values computed by the inner loops of `pkernel` -/
theorem pkCol_spec (t : T) {nc : Nat} (jj : Nat) : ∀ (l : List (Row × Nat)),
    (∀ e ∈ l, Good p nc e.1 ∧ ent (ZMod p) e.1 e.2 = 1) →
    (pkCol t p jj l).length = l.length ∧ (∀ b ∈ pkCol t p jj l, |b| < (p : ℤ)) ∧
    ∀ i (hi : i < l.length), ent (ZMod p) l[i].1 jj + (((l.zip (pkCol t p jj l)).drop i).map fun e =>
      ent (ZMod p) l[i].1 e.1.2 * ((e.2 : ℤ) : ZMod p)).sum = 0
  | [], _ => by simp [pkCol]
  | (row, c) :: l, h => by
    obtain ⟨h1, h2, h3⟩ := pkCol_spec t jj l fun e he => h e (List.mem_cons_of_mem _ he)
    obtain ⟨g, hpiv⟩ := h (row, c) List.mem_cons_self
    have hfold : ∀ L : List ((Row × Nat) × ℤ), (∀ e ∈ L, |e.2| < (p : ℤ)) →
        ((L.foldr (fun e temp => sxmod t (temp - sxmodmul t (row.getD e.1.2 0) e.2 p) p)
          (-row.getD jj 0) : ℤ) : ZMod p) =
        -ent (ZMod p) row jj - (L.map fun e => ent (ZMod p) row e.1.2 * ((e.2 : ℤ) : ZMod p)).sum := by
      intro L
      induction L with
      | nil => intro _; simp [ent]
      | cons e L ih =>
        intro hL
        rw [List.foldr_cons, cast_sxmod, Int.cast_sub, ih fun e he => hL e (List.mem_cons_of_mem _ he),
          cast_sxmodmul t (g.2 _) (hL e List.mem_cons_self), List.map_cons, List.sum_cons]
        unfold ent
        ring
    rw [pkCol]
    refine ⟨by simp [h1], ?_, ?_⟩
    · intro b hb
      rcases List.mem_cons.1 hb with rfl | hb
      · exact smod_abs_lt t _
      · exact h2 b hb
    · intro i hi
      cases i with
      | zero =>
        simp only [List.getElem_cons_zero, List.zip_cons_cons, List.drop_zero, List.map_cons,
          List.sum_cons]
        rw [cast_smod, hfold _ fun e he => h2 e.2 (List.of_mem_zip he).2, show ent (ZMod p) row c = 1 from hpiv]
        ring
      | succ i =>
        simp only [List.getElem_cons_succ, List.zip_cons_cons, List.drop_succ_cons]
        exact h3 i (by simpa using hi)

/-- **C18.** `pkernel(m,p)` for a prime `p` is a basis of the right null space of `m` over `F_p`: each column of
the basis matrix is annihilated by `m`, the rows `pivots` form the identity matrix, every null vector
is a combination of the columns in exactly one way; the denominator is 1. -/
theorem C18_pkernel (X : Marith.XGcd) (t : T) (m : M) (hm : Rect m) :
    let s := pkernel X t p m
    s.denom = 1 ∧ IsKernelBasis (ZMod p) m.nc m.rows 1 s.pivots s.basis := by
  obtain ⟨hech, hspan, hnp, hG⟩ := C17_echmodp_uptri (p := p) X t m hm
  refine ⟨rfl, ?_⟩
  simp only [pkernel]
  rw [hnp]
  have hlen := hG.length_eq
  refine kernel_of hech hspan one_ne_zero 1 (by simp) (fun r j => (pkCol t p ((nonPivots m.nc (echmodpUptri X t p m).pc).getD j 0)
    ((echmodpUptri X t p m).m.rows.zip (echmodpUptri X t p m).pc)).getD r 0) ?_
  intro i hi j hj
  rw [mul_one]
  obtain ⟨h1, h2, h3⟩ := pkCol_spec t (nc := m.nc) ((nonPivots m.nc (echmodpUptri X t p m).pc).getD j 0)
    ((echmodpUptri X t p m).m.rows.zip (echmodpUptri X t p m).pc) (forall₂_zip hG)
  generalize hL : (echmodpUptri X t p m).m.rows = rows at *
  generalize hP : (echmodpUptri X t p m).pc = pc at *
  have hzl : (rows.zip pc).length = pc.length := by rw [List.length_zip]; omega
  have h4 := h3 i (by omega)
  have hri : (rows.zip pc)[i].1 = rows.getD i [] := by
    rw [List.getElem_zip, List.getD_eq_getElem _ _ (by omega)]
  rw [hri] at h4
  set jj := (nonPivots m.nc pc).getD j 0 with hjj
  set bs := pkCol t p jj (rows.zip pc) with hbs
  have hfull : ((List.range pc.length).map fun s =>
      ent (ZMod p) (rows.getD i []) (pc.getD s 0) * ((bs.getD s 0 : ℤ) : ZMod p)) =
      ((rows.zip pc).zip bs).map fun e => ent (ZMod p) (rows.getD i []) e.1.2 * ((e.2 : ℤ) : ZMod p) := by
    apply List.ext_getElem
    · simp only [List.length_map, List.length_range, List.length_zip, h1]; omega
    · intro s hs _
      have hs' : s < pc.length := by simpa using hs
      simp only [List.getElem_map, List.getElem_range, List.getElem_zip]
      rw [List.getD_eq_getElem pc _ hs', List.getD_eq_getElem bs _ (by omega)]
  rw [hfull, ← List.take_append_drop i ((rows.zip pc).zip bs), List.map_append, List.sum_append]
  have hzero : (((rows.zip pc).zip bs).take i).map (fun e =>
      ent (ZMod p) (rows.getD i []) e.1.2 * ((e.2 : ℤ) : ZMod p)) =
      (((rows.zip pc).zip bs).take i).map fun _ => 0 := by
    apply List.map_congr_left
    intro e he
    obtain ⟨s, hs, rfl⟩ := List.mem_iff_getElem.1 he
    have hsi : s < i := by simp only [List.length_take] at hs; omega
    simp only [List.getElem_take, List.getElem_zip]
    have hpv := (List.forall₂_iff_get.1 hech.piv).2 i (by omega) hi
    have hlt : pc[s] < pc[i] := List.pairwise_iff_getElem.1 hech.sorted s i _ _ hsi
    have := hpv.2 pc[s] hlt
    rw [List.getD_eq_getElem _ _ (by omega)]
    simp only [List.get_eq_getElem] at this
    rw [this, zero_mul]
  rw [hzero]
  simp only [List.map_const', List.sum_replicate, smul_zero, zero_add]
  exact h4

/-- **C18 (oldpkernel).** The same for `oldpkernel`. -/
theorem C18_oldpkernel (X : Marith.XGcd) (t : T) (m : M) (hm : Rect m) :
    let s := oldpkernel X t p m
    s.denom = 1 ∧ IsKernelBasis (ZMod p) m.nc m.rows 1 s.pivots s.basis := by
  obtain ⟨hr, hspan, hnp, -⟩ := C17_echmodp (p := p) X t m hm
  refine ⟨rfl, ?_⟩
  simp only [oldpkernel]
  rw [hnp]
  refine kernel_of (hr.toEchelon one_ne_zero) hspan one_ne_zero 1 (by simp)
    (fun r j => smod t (-(echmodp X t p m).m.get r ((nonPivots m.nc (echmodp X t p m).pc).getD j 0)) p) ?_
  intro i hi j hj
  rw [mul_one]
  have hrange : (List.range (echmodp X t p m).pc.length).getD i 0 = i := by
    rw [List.getD_eq_getElem _ _ (by simpa using hi), List.getElem_range]
  have : ((List.range (echmodp X t p m).pc.length).map fun s =>
      ent (ZMod p) ((echmodp X t p m).m.rows.getD i []) ((echmodp X t p m).pc.getD s 0) *
      ((smod t (-(echmodp X t p m).m.get s ((nonPivots m.nc (echmodp X t p m).pc).getD j 0)) p : ℤ) : ZMod p)) =
      (List.range (echmodp X t p m).pc.length).map fun s =>
        (fun s => -ent (ZMod p) ((echmodp X t p m).m.rows.getD s [])
          ((nonPivots m.nc (echmodp X t p m).pc).getD j 0)) s *
        (if s = (List.range (echmodp X t p m).pc.length).getD i 0 then 1 else 0) := by
    apply List.map_congr_left
    intro s hs
    have hs := List.mem_range.1 hs
    rw [hr.piv i s hi hs, cast_smod, hrange]
    unfold M.get ent
    by_cases h : i = s
    · rw [if_pos h, if_pos h.symm]; push_cast; ring
    · rw [if_neg h, if_neg (fun e => h e.symm)]; ring
  rw [this, sum_nonPivots List.nodup_range (by simpa using hi), hrange]
  ring

/-! ### examples and echelonp -/

/-- Hypotheses met; the result of `echmodp` on a matrix of rank 2 modulo 7. -/
example : Rect ⟨3, [[2, 2, 1], [4, 4, 2], [3, 1, 1]]⟩ ∧
    echmodp Marith.Props.xgcd0 .long 7 ⟨3, [[2, 2, 1], [4, 4, 2], [3, 1, 1]]⟩ =
      ⟨⟨3, [[1, 0, 2], [0, 1, 2]]⟩, [0, 1], [2]⟩ := by
  refine ⟨fun r hr => ?_, by decide +kernel⟩
  revert hr; revert r; decide

/-- Hypotheses met; the kernel of the same matrix. -/
example : pkernel Marith.Props.xgcd0 .long 7 ⟨3, [[2, 2, 1], [4, 4, 2], [3, 1, 1]]⟩ =
    ⟨1, [2], ⟨1, [[-2], [-2], [1]]⟩⟩ ∧
    oldpkernel Marith.Props.xgcd0 .big 7 ⟨3, [[2, 2, 1], [4, 4, 2], [3, 1, 1]]⟩ =
    ⟨1, [2], ⟨1, [[-2], [-2], [1]]⟩⟩ := by decide +kernel

theorem modratLong_one : Marith.modratLong 1 1073741789 = some (1, 1, true) := by
  have h : Marith.GState.init (Arith.mod 1 1073741789) 1 1073741789 0 =
      ⟨1, 1, 1073741789, 0, 2, 1073741789, 1152921429444920521⟩ := by decide
  unfold Marith.modratLong Marith.gaussReduce
  rw [h, Marith.GState.loop]
  simp [Marith.GState.shift, Arith.roundedDivision]
  rw [Marith.GState.loop]
  simp [Marith.GState.shift, Arith.roundedDivision]

/-- the result of `echelonp` on a 2 × 3 matrix -/
theorem echelonp_example :
    echelonp Marith.Props.xgcd0 .long 1073741789 ⟨3, [[1, 1, 1], [0, 1, 1]]⟩ =
      some (⟨⟨3, [[1, 0, 1], [0, 1, 1]]⟩, [0, 1], [2]⟩, 1) := by
  have h : echelonpMod Marith.Props.xgcd0 .long 1073741789 ⟨3, [[1, 1, 1], [0, 1, 1]]⟩ =
      ⟨⟨3, [[1, 1, 1], [0, 1, 1]]⟩, [0, 1], [2]⟩ := by decide +kernel
  have h2 : smodrat .long 1 1073741789 = some (1, 1, true) := modratLong_one
  unfold echelonp
  rw [h]
  simp only [List.mapM_cons, List.mapM_nil, List.getD_cons_succ, List.getD_cons_zero, h2]
  decide +kernel

/-- **C57 (negative).** `echelonp` does not preserve the row space: the loop of back substitution is never
executed.  For the matrix with rows (1,1,1), (0,1,1) and the default prime the result is
(1,0,1), (0,1,1) with denominator 1; the vector (0,-1,1) is a null vector of the input only. -/
theorem C57_echelonp_counterexample :
    ¬ ∀ m : M, Rect m → (∀ r ∈ m.rows, ∀ x ∈ r, |x| ≤ 1) →
      ∃ e d, echelonp Marith.Props.xgcd0 .long 1073741789 m = some (e, d) ∧
        rowSpan ℚ m.nc e.m.rows = rowSpan ℚ m.nc m.rows := by
  intro h
  obtain ⟨e, d, h1, h2⟩ := h ⟨3, [[1, 1, 1], [0, 1, 1]]⟩ (fun r hr => by revert hr; revert r; decide)
    (by decide)
  rw [echelonp_example] at h1
  simp only [Option.some.injEq, Prod.mk.injEq] at h1
  obtain ⟨rfl, -⟩ := h1
  have hn := (isNull_congr h2.symm ![(0 : ℚ), -1, 1]).1 (by
    intro r hr
    simp only [List.mem_cons, List.not_mem_nil, or_false] at hr
    rcases hr with rfl | rfl <;> simp [Fin.sum_univ_three, ent])
  have := hn [1, 0, 1] (by simp)
  simp [Fin.sum_univ_three, ent] at this

end Props

end Eclib.Mat
