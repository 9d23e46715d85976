import Mathlib.Algebra.Field.ZMod
import Mathlib.Data.ZMod.Basic
import Mathlib.Data.List.GetD
import Mathlib.LinearAlgebra.FiniteDimensional.Basic
import Mathlib.LinearAlgebra.FiniteDimensional.Lemmas
import Mathlib.LinearAlgebra.Dimension.Constructions
import Verif.Svec.Props
import Verif.Mat.Kernel

/-!
# Elimination modulo a prime: echmodp and pkernel

Theorems C17, C18.
-/

namespace Eclib.Mat

open Svec (T smod sxmod sxmodmul)
open Svec.Props (Red smod_spec smod_lt sxmod_cong sxmodmul_cong)

variable {p : ℕ} [hp : Fact p.Prime]

/-! ### scalars -/

theorem pne : (p : ℤ) ≠ 0 := by exact_mod_cast hp.out.ne_zero

theorem cast_eq_of_cong {x y : ℤ} (h : Spec.Cong (p : ℤ) x y) : (x : ZMod p) = (y : ZMod p) := by
  rw [eq_comm, ZMod.intCast_eq_intCast_iff_dvd_sub]
  exact h

theorem cast_smod (t : T) (x : ℤ) : ((smod t x p : ℤ) : ZMod p) = (x : ZMod p) :=
  cast_eq_of_cong (smod_spec t x p pne).1

theorem cast_sxmod (t : T) (x : ℤ) : ((sxmod t x p : ℤ) : ZMod p) = (x : ZMod p) :=
  cast_eq_of_cong (sxmod_cong t x p)

omit hp in
theorem red_of_lt {t : T} {x : ℤ} (h : |x| < p) : Red t p x := by
  intro _ h2; rw [← h2]; exact h

theorem cast_sxmodmul (t : T) {x y : ℤ} (hx : |x| < p) (hy : |y| < p) :
    ((sxmodmul t x y p : ℤ) : ZMod p) = (x : ZMod p) * (y : ZMod p) := by
  have := cast_eq_of_cong (sxmodmul_cong t x y p (red_of_lt hx) (red_of_lt hy))
  rw [this]; push_cast; ring

theorem smod_abs_lt (t : T) (x : ℤ) : |smod t x p| < p := by
  have := smod_lt t x p pne
  rwa [Nat.abs_cast] at this

theorem cast_eq_zero_iff {x : ℤ} (h : |x| < p) : (x : ZMod p) = 0 ↔ x = 0 := by
  constructor
  · intro h0
    rw [ZMod.intCast_zmod_eq_zero_iff_dvd] at h0
    exact Svec.Props.eq_zero_of_small (by rwa [Nat.abs_cast]) h0
  · rintro rfl; simp

theorem smod_zero_iff (t : T) (x : ℤ) : smod t x p = 0 ↔ (x : ZMod p) = 0 := by
  rw [← cast_smod t x, cast_eq_zero_iff (smod_abs_lt t x)]

theorem sxmod_abs_lt (t : T) (x : ℤ) : |sxmod t x p| < p := by
  have h0 : (0 : ℤ) < p := by exact_mod_cast hp.out.pos
  have ht : |x.tmod p| < p := by
    have := Int.tmod_lt_of_pos x h0
    have h2 := Int.lt_tmod_of_pos x h0
    rw [abs_lt]; exact ⟨h2, this⟩
  cases t with
  | int => exact ht
  | long => exact ht
  | big =>
    change |x.fmod p| < p
    rw [abs_of_nonneg (Int.fmod_nonneg_of_pos x h0)]
    exact Int.fmod_lt_of_pos x h0

theorem sinvmod_cast (X : Marith.XGcd) (t : T) {x : ℤ} (hx : (x : ZMod p) ≠ 0) :
    (x : ZMod p) * ((sinvmod X t x p : ℤ) : ZMod p) = 1 := by
  have hc : IsCoprime x (p : ℤ) := by
    rw [isCoprime_comm]
    apply (Nat.prime_iff_prime_int.1 hp.out).coprime_iff_not_dvd.2
    rwa [← ZMod.intCast_zmod_eq_zero_iff_dvd]
  have key : Spec.Cong (p : ℤ) (x * sinvmod X t x p) 1 := by
    cases t with
    | int => exact Arith.Props.C02_invmod_inverse x p (Int.isCoprime_iff_gcd_eq_one.1 hc)
    | long => exact Arith.Props.C02_invmod_inverse x p (Int.isCoprime_iff_gcd_eq_one.1 hc)
    | big =>
      refine (Marith.Props.C02_invmod_big X x p).1 ?_
      obtain ⟨u, v, h⟩ := hc
      exact ⟨u, -v, by linarith⟩
  have := cast_eq_of_cong key
  rw [← Int.cast_mul, this, Int.cast_one]

/-! ### rows -/

/-- a row of the right length with reduced entries -/
def Good (p nc : ℕ) (row : Row) : Prop := row.length = nc ∧ ∀ k, |row.getD k 0| < (p : ℤ)

theorem good_reduce (t : T) {nc : Nat} {row : Row} (h : row.length = nc) :
    Good p nc (row.map (smod t · p)) := by
  refine ⟨by simpa using h, fun k => ?_⟩
  rw [List.getD_eq_getElem?_getD, List.getElem?_map]
  cases row[k]? with
  | none => simpa using hp.out.pos
  | some x => exact smod_abs_lt t x

theorem getD_map_zero {f : ℤ → ℤ} (hf : f 0 = 0) (row : Row) (k : Nat) :
    (row.map f).getD k 0 = f (row.getD k 0) := by
  rw [List.getD_eq_getElem?_getD, List.getD_eq_getElem?_getD, List.getElem?_map]
  cases row[k]? with
  | none => exact hf.symm
  | some x => rfl

theorem smod_zero (t : T) : smod t 0 p = 0 := by
  rw [smod_zero_iff]; simp

theorem ent_reduce (t : T) (row : Row) (k : Nat) :
    ent (ZMod p) (row.map (smod t · p)) k = ent (ZMod p) row k := by
  unfold ent
  rw [getD_map_zero (f := fun x => smod t x p) (smod_zero t), cast_smod]

theorem getD_zip (f : ℤ → ℤ → ℤ) (r1 r2 : Row) (pos k : Nat) (h : r1.length = r2.length)
    (hk : k < r2.length) :
    (r2.take pos ++ List.zipWith f (r1.drop pos) (r2.drop pos)).getD k 0 =
      if k < pos then r2.getD k 0 else f (r1.getD k 0) (r2.getD k 0) := by
  split_ifs with hkp
  · rw [List.getD_append _ _ _ _ (by rw [List.length_take]; omega)]
    rw [List.getD_eq_getElem?_getD, List.getD_eq_getElem?_getD, List.getElem?_take_of_lt hkp]
  · have hl : (r2.take pos).length = pos := by rw [List.length_take]; omega
    rw [List.getD_append_right _ _ _ _ (by omega), hl]
    rw [List.getD_eq_getElem _ _ (by simp only [List.length_zipWith, List.length_drop]; omega),
      List.getD_eq_getElem _ _ (by omega), List.getD_eq_getElem _ _ (by omega)]
    simp only [List.getElem_zipWith, List.getElem_drop]
    congr 2 <;> omega

theorem length_zip (f : ℤ → ℤ → ℤ) (r1 r2 : Row) (pos : Nat) (h : r1.length = r2.length) :
    (r2.take pos ++ List.zipWith f (r1.drop pos) (r2.drop pos)).length = r2.length := by
  simp only [List.length_append, List.length_take, List.length_zipWith, List.length_drop]
  omega

theorem good_zip {nc : Nat} {f : ℤ → ℤ → ℤ} {r1 r2 : Row} {pos : Nat} (h1 : Good p nc r1)
    (h2 : Good p nc r2) (hf : ∀ x y, |f x y| < (p : ℤ)) :
    Good p nc (r2.take pos ++ List.zipWith f (r1.drop pos) (r2.drop pos)) := by
  have hl := length_zip f r1 r2 pos (h1.1.trans h2.1.symm)
  refine ⟨hl.trans h2.1, fun k => ?_⟩
  by_cases hk : k < r2.length
  · rw [getD_zip f r1 r2 pos k (h1.1.trans h2.1.symm) hk]
    split_ifs
    · exact h2.2 k
    · exact hf _ _
  · rw [List.getD_eq_default _ _ (by omega)]
    simpa using hp.out.pos

theorem elimp1F_cast (t : T) {q x y : ℤ} (hq : |q| < p) (hx : |x| < p) :
    ((elimp1F t p q x y : ℤ) : ZMod p) = y - q * x := by
  unfold elimp1F
  split_ifs with h1 h2
  · rw [cast_smod, h1]; push_cast; ring
  · rw [cast_smod, h2]; push_cast; ring
  · rw [cast_smod, Int.cast_sub, cast_sxmodmul t hq hx]

theorem elimpF_cast (t : T) {a q x y : ℤ} (ha : |a| < p) (hq : |q| < p) (hx : |x| < p) (hy : |y| < p) :
    ((elimpF t p a q x y : ℤ) : ZMod p) = a * y - q * x := by
  unfold elimpF
  split_ifs with h1 h2 h3 h4 h5
  · rw [cast_smod, h1, h2]; push_cast; ring
  · rw [cast_smod, h1, h3]; push_cast; ring
  · rw [cast_smod, h1, Int.cast_sub, cast_sxmodmul t hq hx]; push_cast; ring
  · rw [cast_smod, h4, Int.cast_add, cast_sxmodmul t ha hy]; push_cast; ring
  · rw [cast_smod, h5, Int.cast_sub, cast_sxmodmul t ha hy]; push_cast; ring
  · rw [cast_smod, Int.cast_sub, cast_sxmodmul t ha hy, cast_sxmodmul t hq hx]

theorem elimp1F_lt (t : T) (q x y : ℤ) : |elimp1F t p q x y| < p := by
  unfold elimp1F
  split_ifs <;> exact smod_abs_lt t _

theorem elimpF_lt (t : T) (a q x y : ℤ) : |elimpF t p a q x y| < p := by
  unfold elimpF
  split_ifs <;> exact smod_abs_lt t _

/-- `elimp1` clears the column `c` if the pivot is 1 -/
theorem elimp1_spec (t : T) {nc c : Nat} {piv row : Row} (hc : c < nc) (h1 : Good p nc piv)
    (h2 : Good p nc row) (hpiv : ent (ZMod p) piv c = 1) (hz : ∀ k < c, ent (ZMod p) piv k = 0) :
    Good p nc (elimp1 t p c piv row) ∧ Cleared (ZMod p) nc piv c row (elimp1 t p c piv row) := by
  have key : Good p nc (elimp1 t p c piv row) ∧ ∀ k < nc, ent (ZMod p) (elimp1 t p c piv row) k =
      1 * ent (ZMod p) row k + (-ent (ZMod p) row c) * ent (ZMod p) piv k := by
    unfold elimp1
    simp only
    split_ifs with hq
    · rw [smod_zero_iff] at hq
      refine ⟨h2, fun k _ => ?_⟩
      unfold ent
      rw [hq]; ring
    · refine ⟨good_zip h1 h2 (elimp1F_lt t _), fun k hk => ?_⟩
      unfold ent
      rw [getD_zip _ _ _ _ _ (h1.1.trans h2.1.symm) (by rw [h2.1]; exact hk)]
      split_ifs with hkc
      · have := hz k hkc
        unfold ent at this
        rw [this]; ring
      · rw [elimp1F_cast t (smod_abs_lt t _) (h1.2 k), cast_smod]; ring
  refine ⟨key.1, 1, _, one_ne_zero, key.2, ?_⟩
  rw [key.2 c hc, hpiv]; ring

/-- `elimp` clears the column `c` if the pivot is exactly 1 -/
theorem elimp_spec (t : T) {nc c : Nat} {piv row : Row} (hc : c < nc) (h1 : Good p nc piv)
    (h2 : Good p nc row) (hpiv : ent (ZMod p) piv c = 1) (hz : ∀ k < c, ent (ZMod p) piv k = 0) :
    Good p nc (elimp t p c piv row) ∧ Cleared (ZMod p) nc piv c row (elimp t p c piv row) := by
  have key : Good p nc (elimp t p c piv row) ∧ ∀ k < nc, ent (ZMod p) (elimp t p c piv row) k =
      1 * ent (ZMod p) row k + (-ent (ZMod p) row c) * ent (ZMod p) piv k := by
    unfold elimp
    simp only
    split_ifs with hq
    · rw [smod_zero_iff] at hq
      refine ⟨h2, fun k _ => ?_⟩
      unfold ent
      rw [hq]; ring
    · refine ⟨good_zip h1 h2 (elimpF_lt t _ _), fun k hk => ?_⟩
      unfold ent
      unfold ent at hpiv
      rw [getD_zip _ _ _ _ _ (h1.1.trans h2.1.symm) (by rw [h2.1]; exact hk)]
      split_ifs with hkc
      · have := hz k hkc
        unfold ent at this
        rw [this]; ring
      · rw [elimpF_cast t (smod_abs_lt t _) (smod_abs_lt t _) (h1.2 k) (h2.2 k), cast_smod, cast_smod,
          hpiv]; ring
  refine ⟨key.1, 1, _, one_ne_zero, key.2, ?_⟩
  rw [key.2 c hc, hpiv]; ring

/-! ### the forward stage -/

/-- invariant: reduced rows, pivots 1 -/
def JP (p nc : ℕ) [Fact p.Prime] (_ : Nat) (S : FS Unit) : Prop :=
  (∀ row ∈ S.rest, Good p nc row) ∧
  List.Forall₂ (fun row c => Good p nc row ∧ ent (ZMod p) row c = 1) S.top S.pc

/-- what is needed of the treatment of a pivotal column -/
structure ActOK (p : ℕ) [Fact p.Prime] (nc : ℕ) (act : Nat → Row → List Row → Unit → Row × List Row × Unit) :
    Prop where
  spec : ∀ c piv others, c < nc → Good p nc piv → (∀ r ∈ others, Good p nc r) →
    ent (ZMod p) piv c ≠ 0 → (∀ k < c, ent (ZMod p) piv k = 0) →
    let r := act c piv others ()
    Good p nc r.1 ∧ ent (ZMod p) r.1 c = 1 ∧ (∃ a : ZMod p, a ≠ 0 ∧
      ∀ k < nc, ent (ZMod p) r.1 k = a * ent (ZMod p) piv k) ∧
    (∀ r' ∈ r.2.1, Good p nc r') ∧ List.Forall₂ (Cleared (ZMod p) nc piv c) others r.2.1

theorem fwd_modp {nc : ℕ} {act : Nat → Row → List Row → Unit → Row × List Row × Unit}
    (ha : ActOK p nc act) {rows : List Row} (hg : ∀ row ∈ rows, Good p nc row) :
    FEnd (ZMod p) nc rows (fwd findNonzero act nc 0 ⟨[], rows, [], [], ()⟩) ∧
    List.Forall₂ (fun row c => Good p nc row ∧ ent (ZMod p) row c = 1)
      (fwd findNonzero act nc 0 ⟨[], rows, [], [], ()⟩).top
      (fwd findNonzero act nc 0 ⟨[], rows, [], [], ()⟩).pc := by
  have H := fwd_spec (F := ZMod p) (nc := nc) (init := rows) findNonzero act (JP p nc)
    (by
      intro c S hJ hI _ _ hf
      refine ⟨fun row hrow => ?_, hJ⟩
      unfold findNonzero at hf
      rw [List.findIdx?_eq_none_iff] at hf
      have := hf row hrow
      simp only [ne_eq, decide_not, Bool.not_eq_eq_eq_not, Bool.not_false, decide_eq_true_eq] at this
      unfold ent
      rw [this]; simp)
    (by
      intro c S i hJ hI hc hf
      unfold findNonzero at hf
      rw [List.findIdx?_eq_some_iff_getElem] at hf
      obtain ⟨hi, hne, -⟩ := hf
      have hperm := swapRows_perm hi
      have e : (swapRows S.rest i).1 = S.rest[i] := by
        unfold swapRows
        exact List.getD_eq_getElem _ _ hi
      have gp : Good p nc (swapRows S.rest i).1 := hJ.1 _ (hperm.mem_iff.2 List.mem_cons_self)
      have go : ∀ r ∈ (swapRows S.rest i).2, Good p nc r := fun r hr =>
        hJ.1 _ (hperm.mem_iff.2 (List.mem_cons_of_mem _ hr))
      have hne' : ent (ZMod p) (swapRows S.rest i).1 c ≠ 0 := by
        unfold ent
        rw [ne_eq, cast_eq_zero_iff (gp.2 c), e]
        simpa using hne
      have hz : ∀ k < c, ent (ZMod p) (swapRows S.rest i).1 k = 0 :=
        hI.zero _ (hperm.mem_iff.2 List.mem_cons_self)
      obtain ⟨a1, a2, a3, a4, a5⟩ := ha.spec c _ _ hc gp go hne' hz
      exact ⟨hi, hne', a3, a5, a4, List.rel_append hJ.2 (List.Forall₂.cons ⟨a1, a2⟩ List.Forall₂.nil)⟩)
  obtain ⟨h1, c', -, npc, h2⟩ := H nc 0 ⟨[], rows, [], [], ()⟩ (by simp) ⟨hg, List.Forall₂.nil⟩
    (finv_init rows ())
  exact ⟨h1, h2.2⟩

theorem forall₂_map {α β : Type} {R : α → β → Prop} (f : α → β) (l : List α) (h : ∀ x ∈ l, R x (f x)) :
    List.Forall₂ R l (l.map f) := by
  rw [List.forall₂_map_right_iff, List.forall₂_same]
  exact h

theorem scaled_spec {nc c : Nat} {piv : Row} {g : ℤ → ℤ} {fac : ZMod p}
    (hl : piv.length = nc) (hg0 : g 0 = 0) (hlt : ∀ x, |g x| < (p : ℤ))
    (hg : ∀ k, ((g (piv.getD k 0) : ℤ) : ZMod p) = fac * ent (ZMod p) piv k)
    (hf : ent (ZMod p) piv c * fac = 1) :
    Good p nc (piv.map g) ∧ ent (ZMod p) (piv.map g) c = 1 ∧ fac ≠ 0 ∧
      ∀ k, ent (ZMod p) (piv.map g) k = fac * ent (ZMod p) piv k := by
  have he : ∀ k, ent (ZMod p) (piv.map g) k = fac * ent (ZMod p) piv k := fun k => by
    rw [← hg k]
    unfold ent
    rw [getD_map_zero hg0]
  refine ⟨⟨by simpa using hl, fun k => ?_⟩, ?_, ?_, he⟩
  · rw [getD_map_zero hg0]; exact hlt _
  · rw [he, mul_comm]; exact hf
  · rintro rfl
    simp at hf

theorem cleared_of_scaled {nc c : Nat} {piv piv' row row' : Row} {a : ZMod p}
    (h : ∀ k < nc, ent (ZMod p) piv' k = a * ent (ZMod p) piv k)
    (hc : Cleared (ZMod p) nc piv' c row row') : Cleared (ZMod p) nc piv c row row' := by
  obtain ⟨u, v, hu, huv, h0⟩ := hc
  refine ⟨u, v * a, hu, fun k hk => ?_, h0⟩
  rw [huv k hk, h k hk]; ring

theorem actOK_of {nc : Nat} (t : T) {act : Nat → Row → List Row → Unit → Row × List Row × Unit}
    (g : Row → Nat → ℤ → ℤ) (hact : ∀ c piv others, act c piv others () =
      (piv.map (g piv c), others.map (elimp1 t p c (piv.map (g piv c))), ()))
    (fac : Row → Nat → ZMod p)
    (h0 : ∀ piv c, g piv c 0 = 0) (hlt : ∀ piv c x, |g piv c x| < (p : ℤ))
    (hg : ∀ piv c k, Good p nc piv → ((g piv c (piv.getD k 0) : ℤ) : ZMod p) = fac piv c * ent (ZMod p) piv k)
    (hf : ∀ piv c, ent (ZMod p) piv c ≠ 0 → ent (ZMod p) piv c * fac piv c = 1) : ActOK p nc act := by
  constructor
  intro c piv others hc gp go hne hz
  simp only [hact]
  obtain ⟨s1, s2, s3, s4⟩ := scaled_spec (c := c) gp.1 (h0 piv c) (hlt piv c)
    (fun k => hg piv c k gp) (hf piv c hne)
  have hz' : ∀ k < c, ent (ZMod p) (piv.map (g piv c)) k = 0 := fun k hk => by
    rw [s4, hz k hk, mul_zero]
  have hcl := fun r (hr : r ∈ others) => elimp1_spec t hc s1 (go r hr) s2 hz'
  refine ⟨s1, s2, ⟨fac piv c, s3, fun k _ => s4 k⟩, ?_, ?_⟩
  · intro r' hr'
    obtain ⟨r, hr, rfl⟩ := List.mem_map.1 hr'
    exact (hcl r hr).1
  · exact forall₂_map _ _ fun r hr => cleared_of_scaled (fun k _ => s4 k) (hcl r hr).2

theorem sxmodmul_zero (t : T) {a : ℤ} (ha : |a| < p) : ((sxmodmul t a 0 p : ℤ) : ZMod p) = 0 := by
  rw [cast_sxmodmul t ha (by simpa using hp.out.pos)]; simp

theorem echAct_ok (X : Marith.XGcd) (t : T) (nc : Nat) : ActOK p nc (echAct X t p) := by
  refine actOK_of t (fun piv c x => smod t (sxmodmul t (sxmod t (sinvmod X t (piv.getD c 0) p) p) x p) p)
    (fun _ _ _ => rfl) (fun piv c => ((sinvmod X t (piv.getD c 0) p : ℤ) : ZMod p)) ?_ ?_ ?_ ?_
  · intro piv c
    rw [smod_zero_iff]
    exact sxmodmul_zero t (sxmod_abs_lt t _)
  · intro piv c x; exact smod_abs_lt t _
  · intro piv c k gp
    rw [cast_smod, cast_sxmodmul t (sxmod_abs_lt t _) (gp.2 k), cast_sxmod]
    rfl
  · intro piv c h; exact sinvmod_cast X t h

theorem uptriAct_ok (X : Marith.XGcd) (t : T) (nc : Nat) : ActOK p nc (uptriAct X t p) := by
  refine actOK_of t (fun piv c x => smod t (smod t (sinvmod X t (piv.getD c 0) p) p * x) p)
    (fun _ _ _ => rfl) (fun piv c => ((sinvmod X t (piv.getD c 0) p : ℤ) : ZMod p)) ?_ ?_ ?_ ?_
  · intro piv c
    simp only [mul_zero]
    exact smod_zero t
  · intro piv c x; exact smod_abs_lt t _
  · intro piv c k gp
    rw [cast_smod, Int.cast_mul, cast_smod]
    rfl
  · intro piv c h; exact sinvmod_cast X t h

theorem rowSpan_map {nc : Nat} (f : Row → Row) (rows : List Row)
    (h : ∀ r ∈ rows, vecF (ZMod p) nc (f r) = vecF (ZMod p) nc r) :
    rowSpan (ZMod p) nc (rows.map f) = rowSpan (ZMod p) nc rows := by
  apply le_antisymm
  · rw [rowSpan_le]
    intro r hr
    obtain ⟨x, hx, rfl⟩ := List.mem_map.1 hr
    rw [h x hx]; exact mem_rowSpan hx
  · rw [rowSpan_le]
    intro r hr
    rw [← h r hr]
    exact mem_rowSpan (List.mem_map_of_mem hr)

theorem rowSpan_reduce (t : T) (m : M) :
    rowSpan (ZMod p) m.nc (reduceModP t p m).rows = rowSpan (ZMod p) m.nc m.rows :=
  rowSpan_map _ _ fun r _ => vecF_eq fun k _ => ent_reduce t r k

theorem good_reduceModP (t : T) (m : M) (hm : ∀ r ∈ m.rows, r.length = m.nc) :
    ∀ r ∈ (reduceModP t p m).rows, Good p m.nc r := by
  intro r hr
  obtain ⟨x, hx, rfl⟩ := List.mem_map.1 hr
  exact good_reduce t (hm x hx)

end Eclib.Mat
