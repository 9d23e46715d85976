import Mathlib.Algebra.GCDMonoid.Nat
import Verif.Svec.Props
import Verif.Mat.ModelZ
import Verif.Mat.Kernel
import Verif.Mat.Modp
import Verif.Mat.Bareiss

/-!
# Fraction-free elimination over the integers: lemmas about echelon0 and rank
-/

namespace Eclib.Mat

open Svec (T smod sxmod sxmodmul sdiv sgcd)

/-! ### scalars and rows -/

theorem sdiv_exact (t : T) {x d : ℤ} (h : d ∣ x) : sdiv t x d * d = x := by
  cases t with
  | int => exact Int.tdiv_mul_cancel h
  | long => exact Int.tdiv_mul_cancel h
  | big => exact Int.fdiv_mul_cancel h

theorem sdiv_zero (t : T) (d : ℤ) : sdiv t 0 d = 0 := by
  cases t with
  | int => exact Int.zero_tdiv d
  | long => exact Int.zero_tdiv d
  | big => exact Int.zero_fdiv d

theorem elimF_eq (p q x y : ℤ) : elimF p q x y = p * y - q * x := by
  unfold elimF
  split_ifs with h1 h2 h3 h4 h5 h6 <;> subst_vars <;> ring

theorem ent_eq {row : Row} {k : Nat} : ent ℚ row k = ((row.getD k 0 : ℤ) : ℚ) := rfl

theorem ent_zero_iff {row : Row} {k : Nat} : ent ℚ row k = 0 ↔ row.getD k 0 = 0 := by
  rw [ent_eq]; exact_mod_cast Iff.rfl

theorem consElim_spec {nc c : Nat} {piv row : Row} (h1 : piv.length = nc)
    (h2 : row.length = nc) (hz1 : ∀ k < c, piv.getD k 0 = 0) (hz2 : ∀ k < c, row.getD k 0 = 0) :
    (consElim c piv row).length = nc ∧ ∀ k < nc, (consElim c piv row).getD k 0 =
      piv.getD c 0 * row.getD k 0 - row.getD c 0 * piv.getD k 0 := by
  unfold consElim
  simp only
  split_ifs with h
  · refine ⟨h2, fun k _ => ?_⟩
    rw [h.1, h.2]; ring
  · refine ⟨(length_zip _ _ _ _ (h1.trans h2.symm)).trans h2, fun k hk => ?_⟩
    rw [getD_zip _ _ _ _ _ (h1.trans h2.symm) (by omega)]
    split_ifs with hkc
    · rw [hz1 k hkc, hz2 k hkc]; ring
    · exact elimF_eq _ _ _ _

theorem getD_zipWith (f : ℤ → ℤ → ℤ) (r1 r2 : Row) (k : Nat) (h : r1.length = r2.length)
    (hk : k < r2.length) : (List.zipWith f r1 r2).getD k 0 = f (r1.getD k 0) (r2.getD k 0) := by
  have := getD_zip f r1 r2 0 k h hk
  simpa using this

theorem elimZ_spec {nc c : Nat} {piv row : Row} (h1 : piv.length = nc) (h2 : row.length = nc) :
    (elimZ c piv row).length = nc ∧ ∀ k < nc, (elimZ c piv row).getD k 0 =
      piv.getD c 0 * row.getD k 0 - row.getD c 0 * piv.getD k 0 := by
  unfold elimZ
  simp only
  split_ifs with h
  · refine ⟨h2, fun k _ => ?_⟩
    rw [h.1, h.2]; ring
  · refine ⟨by rw [List.length_zipWith]; omega, fun k hk => ?_⟩
    rw [getD_zipWith _ _ _ _ (h1.trans h2.symm) (by omega)]
    exact elimF_eq _ _ _ _

theorem divLast_spec (t : T) {nc : Nat} {row : Row} {last : ℤ} (h0 : 0 < last) (h : row.length = nc)
    (hd : ∀ k < nc, last ∣ row.getD k 0) :
    (divLast t last row).length = nc ∧ ∀ k < nc, (divLast t last row).getD k 0 * last = row.getD k 0 := by
  unfold divLast
  split_ifs with h1
  · refine ⟨by simpa using h, fun k hk => ?_⟩
    rw [getD_map_zero (sdiv_zero t last), sdiv_exact t (hd k hk)]
  · refine ⟨h, fun k _ => ?_⟩
    have : last = 1 := by omega
    rw [this, mul_one]

theorem elimRows2_spec (t : T) {nc c : Nat} {piv row : Row} {last : ℤ} (h0 : 0 < last) (h1 : piv.length = nc)
    (h2 : row.length = nc)
    (hd : ∀ k < nc, last ∣ piv.getD c 0 * row.getD k 0 - row.getD c 0 * piv.getD k 0) :
    (elimRows2 t c last piv row).length = nc ∧ ∀ k < nc, (elimRows2 t c last piv row).getD k 0 * last =
      piv.getD c 0 * row.getD k 0 - row.getD c 0 * piv.getD k 0 := by
  have e := fun k (hk : k < nc) => getD_zipWith (fun x y => piv.getD c 0 * y - row.getD c 0 * x) piv row k
    (h1.trans h2.symm) (by omega)
  have hl : (List.zipWith (fun x y => piv.getD c 0 * y - row.getD c 0 * x) piv row).length = nc := by
    rw [List.length_zipWith]; omega
  unfold elimRows2
  simp only
  split_ifs with h
  · have : last = 1 := by omega
    refine ⟨hl, fun k hk => ?_⟩
    rw [e k hk, this, mul_one]
  · refine ⟨by simpa using hl, fun k hk => ?_⟩
    rw [getD_map_zero (sdiv_zero t last), e k hk, sdiv_exact t (hd k hk)]

/-! ### the pivot search -/

theorem findMinLoop_spec (c : Nat) : ∀ (l : List Row) (r2 : Nat) (piv : ℤ) (rmin : Nat), 0 ≤ piv →
    let r := findMinLoop c l r2 piv rmin
    (r.1 = 0 → piv = 0 ∧ ∀ row ∈ l, row.getD c 0 = 0) ∧
    (r.1 ≠ 0 → (r = (piv, rmin) ∨ ∃ i, ∃ h : i < l.length, r.2 = r2 + i ∧ r.1 = |l[i].getD c 0|))
  | [], r2, piv, rmin, _ => by simp [findMinLoop]
  | row :: l, r2, piv, rmin, h0 => by
    simp only [findMinLoop]
    split_ifs with h1 h2
    · subst h1; simp
    · obtain ⟨i1, i2⟩ := findMinLoop_spec c l (r2 + 1) (|row.getD c 0|) r2 (abs_nonneg _)
      refine ⟨fun h => ?_, fun h => ?_⟩
      · have := (i1 h).1
        have := h2.1
        omega
      · rcases i2 h with h | ⟨i, hi, e1, e2⟩
        · exact Or.inr ⟨0, by simp, by rw [h]; simp, by rw [h]; simp⟩
        · exact Or.inr ⟨i + 1, by simpa using hi, by rw [e1]; omega, by simpa using e2⟩
    · obtain ⟨i1, i2⟩ := findMinLoop_spec c l (r2 + 1) piv rmin h0
      refine ⟨fun h => ?_, fun h => ?_⟩
      · obtain ⟨j1, j2⟩ := i1 h
        refine ⟨j1, fun x hx => ?_⟩
        rcases List.mem_cons.1 hx with rfl | hx
        · have := abs_nonneg (x.getD c 0)
          have h3 : |x.getD c 0| = 0 := by
            by_contra hne
            exact h2 ⟨by omega, Or.inr j1⟩
          exact abs_eq_zero.1 h3
        · exact j2 x hx
      · rcases i2 h with h | ⟨i, hi, e1, e2⟩
        · exact Or.inl h
        · exact Or.inr ⟨i + 1, by simpa using hi, by rw [e1]; omega, by simpa using e2⟩

theorem findMin_none {c : Nat} {rest : List Row} (h : findMin c rest = none) :
    ∀ row ∈ rest, row.getD c 0 = 0 := by
  unfold findMin at h
  simp only at h
  split_ifs at h with h0
  cases rest with
  | nil => simp
  | cons x l =>
    simp only [List.tail_cons, List.headD_cons] at h0
    obtain ⟨h1, h2⟩ := (findMinLoop_spec c l 1 (|x.getD c 0|) 0 (abs_nonneg _)).1 h0
    intro row hrow
    rcases List.mem_cons.1 hrow with rfl | hrow
    · exact abs_eq_zero.1 h1
    · exact h2 row hrow

theorem findMin_some {c : Nat} {rest : List Row} {i : Nat} (h : findMin c rest = some i) :
    ∃ hi : i < rest.length, rest[i].getD c 0 ≠ 0 := by
  unfold findMin at h
  simp only at h
  split_ifs at h with h0
  simp only [Option.some.injEq] at h
  cases rest with
  | nil => simp [findMinLoop] at h0
  | cons x l =>
    simp only [List.tail_cons, List.headD_cons] at h0 h
    rcases (findMinLoop_spec c l 1 (|x.getD c 0|) 0 (abs_nonneg _)).2 h0 with h' | ⟨k, hk, e1, e2⟩
    · rw [h'] at h0 h
      subst h
      exact ⟨by simp, by simpa using h0⟩
    · rw [e1] at h
      obtain rfl : i = k + 1 := by omega
      rw [e2] at h0
      exact ⟨by simp; omega, fun h => h0 (by rw [List.getElem_cons_succ] at h; rw [h]; simp)⟩

/-! ### the invariant: the entries are bordered minors -/

/-- the remaining rows consist of bordered minors of the original matrix, up to sign; `lastpivot` is the
absolute value of the current minor -/
def JZ (nc : Nat) (_ : Nat) (S : FS ℤ) : Prop :=
  (∃ (ι : Type) (_ : Fintype ι) (_ : DecidableEq ι) (P : ι → ℕ → ℤ) (cs : ι → ℕ), mn P cs ≠ 0 ∧
    S.s = |mn P cs| ∧ ∀ row ∈ S.rest, row.length = nc ∧ ∃ (u : ℕ → ℤ) (e : ℤ), (e = 1 ∨ e = -1) ∧
      ∀ j < nc, row.getD j 0 = e * bd P cs u j) ∧
  ∀ row ∈ S.top, row.length = nc

/-- a treatment of the pivotal column which replaces `row` by `(p*row - q*piv)/lastpivot` if this is
exact -/
def ActZ (nc : Nat) (act : Nat → Row → List Row → ℤ → Row × List Row × ℤ) : Prop :=
  ∃ f : Nat → Row → ℤ → Row → Row,
    (∀ c piv others last, act c piv others last = (piv, others.map (f c piv last), |piv.getD c 0|)) ∧
    ∀ c piv last row, 0 < last → piv.length = nc → row.length = nc →
      (∀ k < c, piv.getD k 0 = 0) → (∀ k < c, row.getD k 0 = 0) →
      (∀ k < nc, last ∣ piv.getD c 0 * row.getD k 0 - row.getD c 0 * piv.getD k 0) →
      (f c piv last row).length = nc ∧ ∀ k < nc, (f c piv last row).getD k 0 * last =
        piv.getD c 0 * row.getD k 0 - row.getD c 0 * piv.getD k 0

theorem ech0Act_ok (t : T) (nc : Nat) : ActZ nc (ech0Act t) := by
  refine ⟨fun c piv last row => divLast t last (consElim c piv row), fun _ _ _ _ => rfl, ?_⟩
  intro c piv last row h0 h1 h2 z1 z2 hd
  obtain ⟨a1, a2⟩ := consElim_spec h1 h2 z1 z2
  obtain ⟨b1, b2⟩ := divLast_spec t h0 a1 (fun k hk => by rw [a2 k hk]; exact hd k hk)
  exact ⟨b1, fun k hk => by rw [b2 k hk, a2 k hk]⟩

theorem rankAct_ok (t : T) (nc : Nat) : ActZ nc (rankAct t) := by
  refine ⟨fun c piv last row => elimRows2 t c last piv row, fun _ _ _ _ => rfl, ?_⟩
  intro c piv last row h0 h1 h2 z1 z2 hd
  exact elimRows2_spec t h0 h1 h2 hd

theorem fwd_Z {nc : Nat} {act : Nat → Row → List Row → ℤ → Row × List Row × ℤ} (ha : ActZ nc act)
    {rows : List Row} (hr : ∀ r ∈ rows, r.length = nc) :
    FEnd ℚ nc rows (fwd findMin act nc 0 ⟨[], rows, [], [], 1⟩) ∧
    ∀ row ∈ (fwd findMin act nc 0 ⟨[], rows, [], [], 1⟩).top, row.length = nc := by
  obtain ⟨f, hf, hspec⟩ := ha
  have H := fwd_spec (F := ℚ) (nc := nc) (init := rows) findMin act (JZ nc)
    (by
      intro c S hJ hI _ _ hn
      exact ⟨fun row hrow => ent_zero_iff.2 (findMin_none hn row hrow), hJ⟩)
    (by
      intro c S i hJ hI hc hs
      obtain ⟨hi, hne⟩ := findMin_some hs
      have hperm := swapRows_perm hi
      have e : (swapRows S.rest i).1 = S.rest[i] := by
        unfold swapRows
        exact List.getD_eq_getElem _ _ hi
      rw [← e] at hne
      simp only [hf]
      generalize (swapRows S.rest i).1 = piv at hperm hne ⊢
      generalize (swapRows S.rest i).2 = others at hperm ⊢
      have hmp : piv ∈ S.rest := hperm.mem_iff.2 List.mem_cons_self
      have hmo : ∀ r ∈ others, r ∈ S.rest := fun r hr => hperm.mem_iff.2 (List.mem_cons_of_mem _ hr)
      obtain ⟨⟨ι, i1, i2, P, cs, hmn, hlast, hrest⟩, htop⟩ := hJ
      obtain ⟨hlp, u₀, e₀, he₀, hu₀⟩ := hrest piv hmp
      have hz1 : ∀ k < c, piv.getD k 0 = 0 := fun k hk => ent_zero_iff.1 (hI.zero piv hmp k hk)
      have hl0 : 0 < S.s := by rw [hlast]; exact abs_pos.2 hmn
      obtain ⟨sg, hsg, habs⟩ : ∃ sg : ℤ, (sg = 1 ∨ sg = -1) ∧ mn P cs = sg * S.s := by
        rcases abs_choice (mn P cs) with h | h
        · exact ⟨1, Or.inl rfl, by rw [hlast, h]; ring⟩
        · exact ⟨-1, Or.inr rfl, by rw [hlast, h]; ring⟩
      have hform : ∀ row ∈ others, ∃ (u : ℕ → ℤ) (e : ℤ), (e = 1 ∨ e = -1) ∧ ∀ k < nc,
          piv.getD c 0 * row.getD k 0 - row.getD c 0 * piv.getD k 0 =
            e * bd (addRow P u₀) (addRow cs c) u k * S.s := by
        intro row hrow
        obtain ⟨hl, u, ε, hε, hu⟩ := hrest row (hmo row hrow)
        refine ⟨u, e₀ * ε * sg, ?_, fun k hk => ?_⟩
        · rcases he₀ with rfl | rfl <;> rcases hε with rfl | rfl <;> rcases hsg with rfl | rfl <;> simp
        · rw [hu₀ c hc, hu₀ k hk, hu c hc, hu k hk]
          have := sylvester P cs u₀ u c k hmn
          rw [habs] at this
          linear_combination (e₀ * ε) * this
      have hact : ∀ row ∈ others, (f c piv S.s row).length = nc ∧ ∀ k < nc,
          (f c piv S.s row).getD k 0 * S.s =
            piv.getD c 0 * row.getD k 0 - row.getD c 0 * piv.getD k 0 := by
        intro row hrow
        obtain ⟨u, e, -, h⟩ := hform row hrow
        exact hspec c piv S.s row hl0 hlp (hrest row (hmo row hrow)).1 hz1
          (fun k hk => ent_zero_iff.1 (hI.zero row (hmo row hrow) k hk))
          (fun k hk => ⟨e * bd (addRow P u₀) (addRow cs c) u k, by rw [h k hk]; ring⟩)
      have hl0' : (S.s : ℚ) ≠ 0 := by exact_mod_cast hl0.ne'
      refine ⟨hi, fun h => hne (ent_zero_iff.1 h), ⟨1, one_ne_zero, fun k _ => by rw [one_mul]⟩, ?_, ?_, ?_⟩
      · refine forall₂_map _ _ fun row hrow => ?_
        refine ⟨(piv.getD c 0 : ℚ) / S.s, -(row.getD c 0 : ℚ) / S.s, ?_, fun k hk => ?_, ?_⟩
        · exact div_ne_zero (by exact_mod_cast hne) hl0'
        · have h1 := (hact row hrow).2 k hk
          have h2 : ((f c piv S.s row).getD k 0 : ℚ) * S.s =
              piv.getD c 0 * row.getD k 0 - row.getD c 0 * piv.getD k 0 := by exact_mod_cast h1
          unfold ent
          field_simp
          linear_combination h2
        · have h1 := (hact row hrow).2 c hc
          have h2 : (f c piv S.s row).getD c 0 * S.s = 0 := by rw [h1]; ring
          exact ent_zero_iff.2 ((mul_eq_zero.1 h2).resolve_right hl0.ne')
      · refine ⟨ι ⊕ Unit, inferInstance, inferInstance, addRow P u₀, addRow cs c, ?_, ?_, ?_⟩
        · intro h0
          apply hne
          rw [hu₀ c hc, show bd P cs u₀ c = 0 from h0, mul_zero]
        · simp only
          rw [hu₀ c hc, abs_mul]
          rcases he₀ with rfl | rfl <;> simp [bd]
        · intro row' hrow'
          obtain ⟨row, hrow, rfl⟩ := List.mem_map.1 hrow'
          obtain ⟨u, e, he, h⟩ := hform row hrow
          refine ⟨(hact row hrow).1, u, e, he, fun k hk => ?_⟩
          have := (hact row hrow).2 k hk
          rw [h k hk] at this
          exact mul_right_cancel₀ hl0.ne' this
      · intro row hrow
        rcases List.mem_append.1 hrow with h | h
        · exact htop row h
        · rw [List.mem_singleton.1 h]; exact hlp)
  obtain ⟨h1, c', -, npc, h2⟩ := H nc 0 ⟨[], rows, [], [], 1⟩ (by simp)
    ⟨⟨Empty, inferInstance, inferInstance, fun a => a.elim, fun a => a.elim, by rw [mn_empty]; exact one_ne_zero,
      by rw [mn_empty]; rfl, fun row hrow => ⟨hr row hrow, fun j => row.getD j 0, 1, Or.inl rfl,
        fun j _ => by rw [bd_empty, one_mul]⟩⟩, by simp⟩ (finv_init rows 1)
  exact ⟨h1, h2.2⟩

end Eclib.Mat
