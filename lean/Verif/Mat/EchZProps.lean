import Verif.Mat.EchZ
import Verif.Mat.ModpProps

/-!
# Theorems about echelon0, rank, kernel and image over the integers (C19)
-/

namespace Eclib.Mat

open Svec (T smod sxmod sxmodmul sdiv sgcd)

namespace Props

theorem slcm_spec (t : T) (a b : ℤ) : |slcm t a b| = (Int.lcm a b : ℤ) := by
  cases t with
  | int => exact Arith.Props.C01_lcm a b
  | long => exact Arith.Props.C01_lcm a b
  | big =>
    simp only [slcm]
    split_ifs with h
    · rw [h.1, h.2]; simp
    · have hd : (Int.gcd a b : ℤ) ∣ b := Int.gcd_dvd_right a b
      have hg : (Int.gcd a b : ℤ) ≠ 0 := by
        intro h0
        exact h (Int.gcd_eq_zero_iff.1 (by exact_mod_cast h0))
      obtain ⟨k, hk⟩ := hd
      have e : b.fdiv (Int.gcd a b) = k := by
        have := Int.mul_fdiv_cancel_left k hg
        rwa [← hk] at this
      rw [e]
      have h1 := Int.gcd_mul_lcm a b
      have h2 : (Int.gcd a b : ℤ) * (Int.lcm a b : ℤ) = |a * b| := by
        rw [Int.abs_eq_natAbs, Int.natAbs_mul, ← h1]; push_cast; ring
      have h3 : (Int.gcd a b : ℤ) * |a * k| = (Int.gcd a b : ℤ) * (Int.lcm a b : ℤ) := by
        rw [h2]
        have e3 : a * b = (Int.gcd a b : ℤ) * (a * k) := by
          calc a * b = a * ((Int.gcd a b : ℤ) * k) := by rw [← hk]
            _ = _ := by ring
        rw [e3, abs_mul (Int.gcd a b : ℤ) (a * k), Nat.abs_cast]
      exact mul_left_cancel₀ hg h3

theorem slcm_dvd (t : T) (a b : ℤ) : a ∣ slcm t a b ∧ b ∣ slcm t a b ∧
    (a ≠ 0 → b ≠ 0 → slcm t a b ≠ 0) := by
  have h := slcm_spec t a b
  refine ⟨?_, ?_, fun ha hb h0 => ?_⟩
  · rw [← dvd_abs, h]; exact Int.dvd_lcm_left a b
  · rw [← dvd_abs, h]; exact Int.dvd_lcm_right a b
  · rw [h0, abs_zero] at h
    have : Int.lcm a b = 0 := by exact_mod_cast h.symm
    rw [Int.lcm_eq_zero_iff] at this
    rcases this with h | h
    · exact ha h
    · exact hb h

theorem lcm_fold (t : T) : ∀ (l : List (Row × Nat)) (d : ℤ), d ≠ 0 →
    (∀ rc ∈ l, rc.1.getD rc.2 0 ≠ 0) →
    let r := l.foldl (fun d rc => slcm t d (rc.1.getD rc.2 0)) d
    r ≠ 0 ∧ d ∣ r ∧ ∀ rc ∈ l, rc.1.getD rc.2 0 ∣ r
  | [], d, hd, _ => ⟨hd, dvd_refl d, by simp⟩
  | rc :: l, d, hd, h => by
    obtain ⟨s1, s2, s3⟩ := slcm_dvd t d (rc.1.getD rc.2 0)
    obtain ⟨h1, h2, h3⟩ := lcm_fold t l (slcm t d (rc.1.getD rc.2 0))
      (s3 hd (h rc List.mem_cons_self)) fun rc hrc => h rc (List.mem_cons_of_mem _ hrc)
    refine ⟨h1, s1.trans h2, ?_⟩
    intro rc' hrc'
    rcases List.mem_cons.1 hrc' with rfl | hrc'
    · exact s2.trans h2
    · exact h3 rc' hrc'

theorem content_dvd (t : T) : ∀ (l : List ℤ) (g : ℤ), 0 ≤ g → 0 ≤ l.foldl (sgcd t) g ∧
    l.foldl (sgcd t) g ∣ g ∧ ∀ x ∈ l, l.foldl (sgcd t) g ∣ x
  | [], g, hg => ⟨hg, dvd_refl g, by simp⟩
  | x :: l, g, _ => by
    obtain ⟨h0, h1, h2, -⟩ := Svec.Props.sgcd_spec t g x
    obtain ⟨i0, i1, i2⟩ := content_dvd t l (sgcd t g x) h0
    refine ⟨i0, i1.trans h1, fun y hy => ?_⟩
    rcases List.mem_cons.1 hy with rfl | hy
    · exact i1.trans h2
    · exact i2 y hy

theorem dvd_getD {l : List ℤ} {g : ℤ} (h : ∀ x ∈ l, g ∣ x) (k : Nat) : g ∣ l.getD k 0 := by
  by_cases hk : k < l.length
  · rw [List.getD_eq_getElem _ _ hk]; exact h _ (List.getElem_mem hk)
  · rw [List.getD_eq_default _ _ (by omega)]; exact dvd_zero g

/-- `clear` divides the row by a positive integer -/
theorem clearRow_spec (t : T) (row : Row) : (clearRow t row).length = row.length ∧
    ∃ g : ℤ, 0 < g ∧ ∀ k, (clearRow t row).getD k 0 * g = row.getD k 0 := by
  unfold clearRow
  simp only
  split_ifs with h
  · refine ⟨by simp, contentRow t row, by omega, fun k => ?_⟩
    rw [getD_map_zero (f := fun x => sdiv t x (contentRow t row)) (sdiv_zero t _)]
    exact sdiv_exact t (dvd_getD (content_dvd t row 0 (le_refl 0)).2.2 k)
  · exact ⟨rfl, 1, one_pos, fun k => mul_one _⟩

theorem clearRow_ent (t : T) (row : Row) : ∃ a : ℚ, a ≠ 0 ∧ ∀ k, ent ℚ (clearRow t row) k = a * ent ℚ row k := by
  obtain ⟨-, g, hg, h⟩ := clearRow_spec t row
  have hg' : (g : ℚ) ≠ 0 := by exact_mod_cast hg.ne'
  refine ⟨(g : ℚ)⁻¹, inv_ne_zero hg', fun k => ?_⟩
  have h2 : ((clearRow t row).getD k 0 : ℚ) * g = row.getD k 0 := by exact_mod_cast h k
  unfold ent
  field_simp
  exact h2

/-- **C19 (echelon form).** `echelon0(m,pc,npc,rk,ny,d)`: the result is in reduced row echelon form with
pivotal columns `pc` and all pivots equal to the positive integer `d`, and has the same row space over
ℚ as `m`; `npc` lists the other columns in order; the rank of `m` is the number of pivotal columns and
rank plus nullity is the number of columns. -/
theorem C19_echelon (t : T) (m : M) (hm : Rect m) :
    let e := (echelon0 t m).1
    let d := (echelon0 t m).2
    0 < d ∧ IsRREF ℚ m.nc d e.m.rows e.pc ∧ rowSpan ℚ m.nc e.m.rows = rowSpan ℚ m.nc m.rows ∧
    e.npc = nonPivots m.nc e.pc ∧ Module.finrank ℚ (rowSpan ℚ m.nc m.rows) = e.pc.length ∧
    e.pc.length + e.npc.length = m.nc ∧ ∀ r ∈ e.m.rows, r.length = m.nc := by
  obtain ⟨hE, htop⟩ := fwd_Z (ech0Act_ok t m.nc) hm
  have key : 0 < (echelon0 t m).2 ∧
      (echelon0 t m).1.pc = (fwd findMin (ech0Act t) m.nc 0 ⟨[], m.rows, [], [], 1⟩).pc ∧
      (echelon0 t m).1.npc = (fwd findMin (ech0Act t) m.nc 0 ⟨[], m.rows, [], [], 1⟩).npc ∧
      IsRREF ℚ m.nc (echelon0 t m).2 (echelon0 t m).1.m.rows (echelon0 t m).1.pc ∧
      rowSpan ℚ m.nc (echelon0 t m).1.m.rows = rowSpan ℚ m.nc m.rows ∧
      ∀ r ∈ (echelon0 t m).1.m.rows, r.length = m.nc := by
    unfold echelon0
    simp only
    generalize fwd findMin (ech0Act t) m.nc 0 ⟨[], m.rows, [], [], 1⟩ = S at hE htop ⊢
    -- the rows after the first clearing
    have hsc1 : List.Forall₂ (fun r r' => ∃ a : ℚ, a ≠ 0 ∧ ∀ k < m.nc, ent ℚ r' k = a * ent ℚ r k)
        S.top (S.top.map (clearRow t)) := forall₂_map _ _ fun r _ => by
      obtain ⟨a, ha, h⟩ := clearRow_ent t r
      exact ⟨a, ha, fun k _ => h k⟩
    have hech1 : List.Forall₂ (fun row c => ent ℚ row c ≠ 0 ∧ ∀ k < c, ent ℚ row k = 0)
        (S.top.map (clearRow t)) S.pc := by
      rw [List.forall₂_map_left_iff]
      refine hE.ech.piv.imp fun row c h => ?_
      obtain ⟨a, ha, h'⟩ := clearRow_ent t row
      refine ⟨?_, fun k hk => ?_⟩
      · rw [h']; exact mul_ne_zero ha h.1
      · rw [h', h.2 k hk, mul_zero]
    have hlen1 : ∀ r ∈ S.top.map (clearRow t), r.length = m.nc := by
      intro r hr
      obtain ⟨x, hx, rfl⟩ := List.mem_map.1 hr
      rw [(clearRow_spec t x).1]; exact htop x hx
    have hspan1 := (rowSpan_scaled hsc1).trans hE.span
    generalize S.top.map (clearRow t) = rows1 at hech1 hlen1 hspan1 ⊢
    have hlen := hech1.length_eq
    have e1 := forall₂_zip_left hlen
    have e2 := forall₂_zip_right hlen
    have hcl : Clears ℚ m.nc (fun r => r.length = m.nc) (fun _ _ => True) elimZ := by
      refine ⟨fun c piv row hc g1 _ g3 hne _ => ?_⟩
      obtain ⟨h1, h2⟩ := elimZ_spec (c := c) g1 g3
      refine ⟨h1, ent ℚ piv c, -ent ℚ row c, hne, fun k hk => ?_, ?_⟩
      · unfold ent
        rw [h2 k hk]; push_cast; ring
      · rw [ent_zero_iff, h2 c hc]; ring
    obtain ⟨b1, b2⟩ := backSub_spec hcl (rows1.zip S.pc) (by rw [e2]; exact hE.ech.sorted) (by
      intro rc hrc
      have b := forall₂_zip hech1 rc hrc
      exact ⟨hE.ech.lt _ (List.of_mem_zip hrc).2, hlen1 _ (List.of_mem_zip hrc).1, trivial, b.1, b.2⟩)
    rw [e1] at b1
    -- the rows after back substitution and the second clearing
    have hb : List.Forall₂ (fun row c => row.length = m.nc ∧ ent ℚ row c ≠ 0 ∧ (∀ k < c, ent ℚ row k = 0) ∧
        ∀ c' ∈ S.pc, c' ≠ c → ent ℚ row c' = 0) (backSub elimZ (rows1.zip S.pc)) S.pc := by
      have h3 : List.Forall₂ (fun row c => row.length = m.nc ∧ ent ℚ row c ≠ 0 ∧ (∀ k < c, ent ℚ row k = 0) ∧
          ∀ c' ∈ S.pc, c' ≠ c → ent ℚ row c' = 0)
          (backSub elimZ (rows1.zip S.pc)) ((rows1.zip S.pc).map Prod.snd) := by
        rw [List.forall₂_map_right_iff]
        refine b2.imp fun row rc h => ⟨h.1, h.2.1, h.2.2.1, fun c' hc' hne => ?_⟩
        rw [← e2] at hc'
        obtain ⟨rc', hrc', rfl⟩ := List.mem_map.1 hc'
        exact h.2.2.2 rc' hrc' hne
      rwa [e2] at h3
    have hspanB := b1.trans hspan1
    generalize backSub elimZ (rows1.zip S.pc) = B at hb hspanB ⊢
    split_ifs with hn
    · have hsc2 : List.Forall₂ (fun r r' => ∃ a : ℚ, a ≠ 0 ∧ ∀ k < m.nc, ent ℚ r' k = a * ent ℚ r k)
          B (B.map (clearRow t)) := forall₂_map _ _ fun r _ => by
        obtain ⟨a, ha, h⟩ := clearRow_ent t r
        exact ⟨a, ha, fun k _ => h k⟩
      have hb2 : List.Forall₂ (fun row c => row.length = m.nc ∧ ent ℚ row c ≠ 0 ∧ (∀ k < c, ent ℚ row k = 0) ∧
          ∀ c' ∈ S.pc, c' ≠ c → ent ℚ row c' = 0) (B.map (clearRow t)) S.pc := by
        rw [List.forall₂_map_left_iff]
        refine hb.imp fun row c h => ?_
        obtain ⟨a, ha, h'⟩ := clearRow_ent t row
        refine ⟨by rw [(clearRow_spec t row).1]; exact h.1, ?_, fun k hk => ?_, fun c' hc' hne => ?_⟩
        · rw [h']; exact mul_ne_zero ha h.2.1
        · rw [h', h.2.2.1 k hk, mul_zero]
        · rw [h', h.2.2.2 c' hc' hne, mul_zero]
      have hspanC := (rowSpan_scaled hsc2).trans hspanB
      generalize B.map (clearRow t) = C at hb2 hspanC ⊢
      have hpz := forall₂_zip hb2
      obtain ⟨l1, -, l3⟩ := lcm_fold t (C.zip S.pc) 1 one_ne_zero fun rc hrc =>
        fun h0 => (hpz rc hrc).2.1 (ent_zero_iff.2 h0)
      set D := (C.zip S.pc).foldl (fun d rc => slcm t d (rc.1.getD rc.2 0)) 1 with hD
      have hd0 : 0 < |D| := abs_pos.2 l1
      have hC : List.Forall₂ (fun row c => row.getD c 0 ∣ |D| ∧ row.length = m.nc ∧ ent ℚ row c ≠ 0 ∧
          (∀ k < c, ent ℚ row k = 0) ∧ ∀ c' ∈ S.pc, c' ≠ c → ent ℚ row c' = 0) C S.pc := by
        rw [List.forall₂_iff_zip]
        exact ⟨hb2.length_eq, fun {a b} hab => ⟨(dvd_abs _ _).2 (l3 (a, b) hab), hpz (a, b) hab⟩⟩
      have hscale : ∀ (row : Row) (c : Nat), row.getD c 0 ∣ |D| → ent ℚ row c ≠ 0 →
          ∃ a : ℚ, a ≠ 0 ∧ a * ent ℚ row c = ((|D| : ℤ) : ℚ) ∧
            ∀ k, ent ℚ (row.map (sdiv t (|D|) (row.getD c 0) * ·)) k = a * ent ℚ row k := by
        intro row c hdv hne
        have hx := sdiv_exact t hdv
        have hx' : ((sdiv t (|D|) (row.getD c 0) : ℤ) : ℚ) * ent ℚ row c = ((|D| : ℤ) : ℚ) := by
          unfold ent; exact_mod_cast hx
        refine ⟨(sdiv t (|D|) (row.getD c 0) : ℤ), ?_, hx', fun k => ?_⟩
        · intro h0
          rw [h0, zero_mul] at hx'
          have : |D| = 0 := by exact_mod_cast hx'.symm
          omega
        · unfold ent
          rw [getD_map_zero (f := (sdiv t (|D|) (row.getD c 0) * ·)) (mul_zero _)]
          push_cast; rfl
      refine ⟨hd0, rfl, rfl, ?_, ?_, ?_⟩
      · refine isRREF_of hE.ech.sorted hE.ech.lt (forall₂_zipWith hC ?_)
        rintro row c ⟨hdv, -, hne, hz, hz'⟩
        obtain ⟨a, ha, h1, h2⟩ := hscale row c hdv hne
        refine ⟨by rw [h2, h1], fun k hk => by rw [h2, hz k hk, mul_zero], fun c' hc' hn' => ?_⟩
        rw [h2, hz' c' hc' hn', mul_zero]
      · rw [← hspanC]
        refine rowSpan_scaled (forall₂_zipWith' hC ?_)
        rintro row c ⟨hdv, -, hne, hz, hz'⟩
        obtain ⟨a, ha, h1, h2⟩ := hscale row c hdv hne
        exact ⟨a, ha, fun k _ => h2 k⟩
      · intro r hr
        obtain ⟨i, hi, rfl⟩ := List.mem_iff_getElem.1 hr
        rw [List.getElem_zipWith, List.length_map]
        exact ((List.forall₂_iff_get.1 hC).2 i (by simp at hi; omega) (by simp at hi; omega)).2.1
    · have hnil : nonPivots m.nc S.pc = [] := by
        rw [← hE.npc]
        exact List.length_eq_zero_iff.1 (by omega)
      have hpc := nonPivots_nil hE.ech.sorted hE.ech.lt hnil
      have hunit : ∀ c k, k < m.nc → ent ℚ (unitRow m.nc c) k = if k = c then 1 else 0 := by
        intro c k hk
        unfold ent
        rw [unitRow_get hk]
        split_ifs <;> simp
      refine ⟨one_pos, rfl, rfl, ?_, ?_, ?_⟩
      · refine isRREF_of hE.ech.sorted hE.ech.lt ?_
        rw [List.forall₂_map_left_iff, List.forall₂_same]
        intro c hc
        have hcn := hE.ech.lt c hc
        refine ⟨by rw [hunit c c hcn, if_pos rfl]; simp, fun k hkc => ?_, fun c' hc' hne => ?_⟩
        · rw [hunit c k (hkc.trans hcn), if_neg hkc.ne]
        · rw [hunit c c' (hE.ech.lt c' hc'), if_neg hne]
      · rw [← hspanB]
        refine rowSpan_scaled ?_
        rw [List.forall₂_map_right_iff]
        refine hb.imp fun r c h => ⟨(ent ℚ r c)⁻¹, inv_ne_zero h.2.1, fun k hk => ?_⟩
        rw [hunit c k hk]
        split_ifs with hkc
        · subst hkc; exact (inv_mul_cancel₀ h.2.1).symm
        · rw [h.2.2.2 k (by rw [hpc]; exact List.mem_range.2 hk) hkc, mul_zero]
      · intro r hr
        obtain ⟨c, -, rfl⟩ := List.mem_map.1 hr
        simp [unitRow]
  obtain ⟨k1, k2, k3, k4, k5, k6⟩ := key
  have hd : ((echelon0 t m).2 : ℚ) ≠ 0 := by exact_mod_cast k1.ne'
  have hnp : (echelon0 t m).1.npc = nonPivots m.nc (echelon0 t m).1.pc := by rw [k2, k3]; exact hE.npc
  refine ⟨k1, k4, k5, hnp, ?_, ?_, k6⟩
  · rw [← k5]; exact k4.finrank hd
  · rw [hnp]; exact length_split k4.sorted k4.lt

/-- an echelon matrix has as many pivots as its rank -/
theorem finrank_echelon {F : Type} [Field F] {nc : Nat} {rows : List Row} {pc : List Nat}
    (h : IsEchelon F nc rows pc) : Module.finrank F (rowSpan F nc rows) = pc.length := by
  have hlen := h.piv.length_eq
  have hli : LinearIndependent F fun i : Fin pc.length => vecF F nc (rows.getD i []) := by
    rw [Fintype.linearIndependent_iff]
    intro g hg
    have key : ∀ n, ∀ i : Fin pc.length, (i : Nat) < n → g i = 0 := by
      intro n
      induction n with
      | zero => intro i hi; omega
      | succ n ih =>
        intro i hi
        have hi2 : (i : Nat) < rows.length := by rw [hlen]; exact i.2
        have hpv := (List.forall₂_iff_get.1 h.piv).2 i hi2 i.2
        have hcn : pc[i] < nc := h.lt _ (List.getElem_mem i.2)
        have := congrFun hg ⟨pc[i], hcn⟩
        rw [Finset.sum_apply, Finset.sum_eq_single i] at this
        · simp only [Pi.smul_apply, smul_eq_mul, vecF, Pi.zero_apply] at this
          refine (mul_eq_zero.1 this).resolve_right ?_
          rw [List.getD_eq_getElem _ _ hi2]
          exact hpv.1
        · intro k _ hk
          simp only [Pi.smul_apply, smul_eq_mul, vecF]
          rcases lt_or_gt_of_ne (fun e => hk (Fin.ext e) : (k : Nat) ≠ i) with hlt | hgt
          · rw [ih k (by omega), zero_mul]
          · have hk2 : (k : Nat) < rows.length := by rw [hlen]; exact k.2
            have hpk := (List.forall₂_iff_get.1 h.piv).2 k hk2 k.2
            have hlt : pc[i] < pc[k] := List.pairwise_iff_getElem.1 h.sorted i k _ _ hgt
            have := hpk.2 pc[i] hlt
            rw [List.getD_eq_getElem _ _ hk2]
            simp only [List.get_eq_getElem] at this
            rw [this, mul_zero]
        · intro hh; exact absurd (Finset.mem_univ _) hh
    exact fun i => key pc.length i i.2
  have := finrank_span_eq_card hli
  rw [Fintype.card_fin] at this
  rw [← this, rowSpan]
  have e : {v | ∃ r ∈ rows, v = vecF F nc r} =
      Set.range fun i : Fin pc.length => vecF F nc (rows.getD i []) := by
    ext v
    simp only [Set.mem_ofPred_eq, Set.mem_range]
    constructor
    · rintro ⟨r, hr, rfl⟩
      obtain ⟨i, hi, rfl⟩ := List.mem_iff_getElem.1 hr
      exact ⟨⟨i, hlen ▸ hi⟩, by rw [List.getD_eq_getElem _ _ hi]⟩
    · rintro ⟨i, rfl⟩
      have hi : (i : Nat) < rows.length := by rw [hlen]; exact i.2
      exact ⟨_, by rw [List.getD_eq_getElem _ _ hi]; exact List.getElem_mem hi, rfl⟩
  rw [e]

/-- **C19 (rank).** `mat::rank()` is the dimension of the row space over ℚ, `nullity()` the difference to the
number of columns. -/
theorem C19_rank (t : T) (m : M) (hm : Rect m) :
    rank t m = Module.finrank ℚ (rowSpan ℚ m.nc m.rows) ∧
    nullity t m = m.nc - Module.finrank ℚ (rowSpan ℚ m.nc m.rows) := by
  obtain ⟨hE, -⟩ := fwd_Z (rankAct_ok t m.nc) hm
  have h : rank t m = Module.finrank ℚ (rowSpan ℚ m.nc m.rows) := by
    rw [← hE.span, finrank_echelon hE.ech]; rfl
  exact ⟨h, by unfold nullity; rw [h]⟩

/-- **C19 (kernel).** `kernel(m)`: the columns of the basis are a basis of the right null space of `m` over ℚ, the
rows `pivots` of the basis form `denom` times the identity matrix, `denom > 0`. -/
theorem C19_kernel (t : T) (m : M) (hm : Rect m) :
    0 < (kernel t m).denom ∧
    IsKernelBasis ℚ m.nc m.rows (kernel t m).denom (kernel t m).pivots (kernel t m).basis := by
  obtain ⟨hd, hr, hspan, hnp, -⟩ := C19_echelon t m hm
  refine ⟨hd, ?_⟩
  have hd' : ((echelon0 t m).2 : ℚ) ≠ 0 := by exact_mod_cast hd.ne'
  simp only [kernel]
  rw [hnp]
  refine kernel_of (hr.toEchelon hd') hspan hd' (echelon0 t m).2 rfl
    (fun r j => -(echelon0 t m).1.m.get r ((nonPivots m.nc (echelon0 t m).1.pc).getD j 0)) ?_
  intro i hi j hj
  have hrange : (List.range (echelon0 t m).1.pc.length).getD i 0 = i := by
    rw [List.getD_eq_getElem _ _ (by simpa using hi), List.getElem_range]
  have : ((List.range (echelon0 t m).1.pc.length).map fun s =>
      ent ℚ ((echelon0 t m).1.m.rows.getD i []) ((echelon0 t m).1.pc.getD s 0) *
      ((-(echelon0 t m).1.m.get s ((nonPivots m.nc (echelon0 t m).1.pc).getD j 0) : ℤ) : ℚ)) =
      (List.range (echelon0 t m).1.pc.length).map fun s =>
        (fun s => -ent ℚ ((echelon0 t m).1.m.rows.getD s [])
          ((nonPivots m.nc (echelon0 t m).1.pc).getD j 0) * ((echelon0 t m).2 : ℚ)) s *
        (if s = (List.range (echelon0 t m).1.pc.length).getD i 0 then 1 else 0) := by
    apply List.map_congr_left
    intro s hs
    have hs := List.mem_range.1 hs
    rw [hr.piv i s hi hs, hrange]
    unfold M.get ent
    by_cases h : i = s
    · rw [if_pos h, if_pos h.symm]; push_cast; ring
    · rw [if_neg h, if_neg (fun e => h e.symm)]; ring
  rw [this, sum_nonPivots List.nodup_range (by simpa using hi), hrange]
  ring

/-- Hypotheses met: a 3 × 4 matrix of rank 2 with denominator 10. -/
example : echelon0 .long ⟨4, [[2, 4, 1, 3], [3, 1, 1, 2], [5, 5, 2, 5]]⟩ =
    (⟨⟨4, [[10, 0, 3, 5], [0, 10, 1, 5]]⟩, [0, 1], [2, 3]⟩, 10) ∧
    kernel .big ⟨4, [[2, 4, 1, 3], [3, 1, 1, 2], [5, 5, 2, 5]]⟩ =
      ⟨10, [2, 3], ⟨2, [[-3, -5], [-1, -5], [10, 0], [0, 10]]⟩⟩ ∧
    rank .int ⟨4, [[2, 4, 1, 3], [3, 1, 1, 2], [5, 5, 2, 5]]⟩ = 2 := by decide +kernel

end Props

end Eclib.Mat
