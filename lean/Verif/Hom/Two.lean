import Verif.Hom.Model
import Verif.Symb.Props
import Mathlib.Algebra.Field.Basic
import Mathlib.Tactic.LinearCombination

/-!
# The maps on the indices of M-symbols and the 2-term relations
-/

namespace Eclib.Hom

open Symb (Symbdata SymbOK)
open Symb.SymbSpec

/-! ### vectors of integers -/

theorem getAt_nat {l : List ℤ} {k : ℕ} (h : k < l.length) : getAt l k = some (l.getD k 0) := by
  unfold getAt
  rw [if_pos (by omega), Int.toNat_natCast, List.getElem?_eq_getElem h, List.getD_eq_getElem _ _ h]

theorem setAt_nat {l : List ℤ} {k : ℕ} (h : k < l.length) (x : ℤ) : setAt l k x = some (l.set k x) := by
  unfold setAt
  rw [if_pos ⟨by omega, by exact_mod_cast h⟩, Int.toNat_natCast]

theorem getD_set' {l : List ℤ} {k : ℕ} (h : k < l.length) (x : ℤ) (i : ℕ) :
    (l.set k x).getD i 0 = if i = k then x else l.getD i 0 := by
  rw [List.getD_eq_getElem?_getD, List.getElem?_set, List.getD_eq_getElem?_getD]
  by_cases hi : k = i
  · subst hi; simp [h]
  · rw [if_neg hi, if_neg (Ne.symm hi)]

theorem setAll_spec (x : ℤ) (rel : List ℕ) : ∀ l : List ℤ, (∀ k ∈ rel, k < l.length) →
    ∃ l', setAll l (rel.map (Nat.cast : ℕ → ℤ)) x = some l' ∧ l'.length = l.length ∧
      ∀ i, l'.getD i 0 = if i ∈ rel then x else l.getD i 0 := by
  induction rel with
  | nil => intro l _; exact ⟨l, rfl, rfl, fun i => by simp⟩
  | cons k rel ih =>
    intro l h
    have hk := h k (by simp)
    obtain ⟨l', e, h1, h2⟩ := ih (l.set k x) fun j hj => by rw [List.length_set]; exact h j (by simp [hj])
    refine ⟨l', ?_, by rw [h1, List.length_set], fun i => ?_⟩
    · unfold setAll at e ⊢
      rw [List.map_cons, List.foldlM_cons, setAt_nat hk]
      exact e
    · rw [h2, getD_set' hk]
      by_cases h3 : i ∈ rel <;> by_cases h4 : i = k <;> simp [h3, h4, List.mem_cons]

/-! ### the maps on indices -/

theorem equiv_neg {N c d : ℤ} : Equiv N c d (-c) (-d) :=
  ⟨-1, ⟨-1, 0, by ring⟩, ⟨0, by ring⟩, ⟨0, by ring⟩⟩

/-- the index of a symbol -/
def idx (S : Symbdata) (c d : ℤ) : ℕ := ((S.index2 c d).getD 0).toNat

/-- the symbol with an index -/
def sy (S : Symbdata) (i : ℕ) : ℤ × ℤ := (S.symbol i).getD (0, 0)

/-- the number of symbols -/
abbrev num (S : Symbdata) : ℕ := S.nsymb.toNat

/-- `rof` -/
def mR (S : Symbdata) (i : ℕ) : ℕ := idx S (sy S i).2 (sy S i).1
/-- `rsof` -/
def mr (S : Symbdata) (i : ℕ) : ℕ := idx S (-(sy S i).1) (sy S i).2
/-- `sof` -/
def ms (S : Symbdata) (i : ℕ) : ℕ := idx S (-(sy S i).2) (sy S i).1
/-- `tof` -/
def mt (S : Symbdata) (i : ℕ) : ℕ := idx S ((sy S i).1 - (sy S i).2) (sy S i).1

section maps

variable {N : ℤ} (hN : 1 < N) {S : Symbdata} (hS : SymbOK N S)

include hN hS

theorem idx_spec {c d : ℤ} (h : Unimod N c d) : S.index2 c d = some (idx S c d : ℤ) ∧ idx S c d < num S ∧
    Equiv N (sy S (idx S c d)).1 (sy S (idx S c d)).2 c d := by
  obtain ⟨i, s, h1, h2, h3, h4, h5⟩ := Symb.index2_spec hN hS h
  lift i to ℕ using h2
  have e : idx S c d = i := by unfold idx; rw [h1]; simp
  rw [e]
  refine ⟨h1, by unfold num; omega, ?_⟩
  unfold sy
  rw [h4]
  exact h5

theorem sy_spec {i : ℕ} (h : i < num S) : S.symbol i = some (sy S i) ∧ Unimod N (sy S i).1 (sy S i).2 ∧
    idx S (sy S i).1 (sy S i).2 = i := by
  obtain ⟨s, h1, h2, h3⟩ := Symb.symbol_spec hN hS (i := (i : ℤ)) (by omega) (by unfold num at h; omega)
  have e : sy S i = s := by unfold sy; rw [h1]; rfl
  rw [e]
  refine ⟨h1, h2, ?_⟩
  unfold idx
  rw [h3]
  simp

theorem idx_eq_iff {c d c' d' : ℤ} (h : Unimod N c d) (h' : Unimod N c' d') :
    idx S c d = idx S c' d' ↔ Equiv N c d c' d' := by
  obtain ⟨h1, _, h3⟩ := idx_spec hN hS h
  obtain ⟨h1', _, h3'⟩ := idx_spec hN hS h'
  constructor
  · intro e
    rw [e] at h3
    exact Symb.Equiv.trans (Symb.Equiv.symm h3) h3'
  · intro e
    have := Symb.index2_equiv hN hS h e
    rw [h1, h1', Option.some.injEq] at this
    exact_mod_cast this.symm

theorem mR_spec {i : ℕ} (h : i < num S) : S.rof i = some (mR S i : ℤ) ∧ mR S i < num S ∧
    Equiv N (sy S (mR S i)).1 (sy S (mR S i)).2 (sy S i).2 (sy S i).1 := by
  obtain ⟨h1, h2, _⟩ := sy_spec hN hS h
  have hu : Unimod N (sy S i).2 (sy S i).1 := by
    simpa using Symb.Props.Unimod.apply h2 (a := 0) (b := 1) (x := 1) (y := 0) (e := -1) (by norm_num) (by norm_num)
  obtain ⟨k1, k2, k3⟩ := idx_spec hN hS hu
  exact ⟨by unfold Symbdata.rof; rw [h1, Option.bind_some, k1]; rfl, k2, k3⟩

theorem mr_spec {i : ℕ} (h : i < num S) : S.rsof i = some (mr S i : ℤ) ∧ mr S i < num S ∧
    Equiv N (sy S (mr S i)).1 (sy S (mr S i)).2 (-(sy S i).1) (sy S i).2 := by
  obtain ⟨h1, h2, _⟩ := sy_spec hN hS h
  have hu : Unimod N (-(sy S i).1) (sy S i).2 := by
    simpa using Symb.Props.Unimod.apply h2 (a := -1) (b := 0) (x := 0) (y := 1) (e := -1) (by norm_num) (by norm_num)
  obtain ⟨k1, k2, k3⟩ := idx_spec hN hS hu
  exact ⟨by unfold Symbdata.rsof; rw [h1, Option.bind_some, k1]; rfl, k2, k3⟩

theorem ms_spec {i : ℕ} (h : i < num S) : S.sof i = some (ms S i : ℤ) ∧ ms S i < num S ∧
    Equiv N (sy S (ms S i)).1 (sy S (ms S i)).2 (-(sy S i).2) (sy S i).1 := by
  obtain ⟨h1, h2, _⟩ := sy_spec hN hS h
  have hu : Unimod N (-(sy S i).2) (sy S i).1 := by
    simpa using Symb.Props.Unimod.apply h2 (a := 0) (b := -1) (x := 1) (y := 0) (e := 1) (by norm_num) (by norm_num)
  obtain ⟨k1, k2, k3⟩ := idx_spec hN hS hu
  exact ⟨by unfold Symbdata.sof; rw [h1, Option.bind_some, k1]; rfl, k2, k3⟩

theorem mt_spec {i : ℕ} (h : i < num S) : S.tof i = some (mt S i : ℤ) ∧ mt S i < num S ∧
    Equiv N (sy S (mt S i)).1 (sy S (mt S i)).2 ((sy S i).1 - (sy S i).2) (sy S i).1 := by
  obtain ⟨h1, h2, _⟩ := sy_spec hN hS h
  have hu : Unimod N ((sy S i).1 - (sy S i).2) (sy S i).1 := by
    simpa [sub_eq_add_neg] using
      Symb.Props.Unimod.apply h2 (a := 1) (b := -1) (x := 1) (y := 0) (e := 1) (by norm_num) (by norm_num)
  obtain ⟨k1, k2, k3⟩ := idx_spec hN hS hu
  exact ⟨by unfold Symbdata.tof; rw [h1, Option.bind_some, k1]; rfl, k2, k3⟩

/-- indices of equivalent symbols are equal -/
theorem eq_of_equiv {i j : ℕ} (hi : i < num S) (hj : j < num S)
    (h : Equiv N (sy S i).1 (sy S i).2 (sy S j).1 (sy S j).2) : i = j := by
  obtain ⟨_, h2, h3⟩ := sy_spec hN hS hi
  obtain ⟨_, k2, k3⟩ := sy_spec hN hS hj
  rw [← h3, ← k3]
  exact (idx_eq_iff hN hS h2 k2).2 h

theorem ms_ms {i : ℕ} (h : i < num S) : ms S (ms S i) = i := by
  obtain ⟨_, h2, h3⟩ := ms_spec hN hS h
  obtain ⟨_, k2, k3⟩ := ms_spec hN hS h2
  refine eq_of_equiv hN hS k2 h (Symb.Equiv.trans k3 ?_)
  refine Symb.Equiv.trans ?_ (Symb.Equiv.symm equiv_neg)
  simpa using Symb.Props.Equiv.apply h3 0 (-1) 1 0

theorem mR_mR {i : ℕ} (h : i < num S) : mR S (mR S i) = i := by
  obtain ⟨_, h2, h3⟩ := mR_spec hN hS h
  obtain ⟨_, k2, k3⟩ := mR_spec hN hS h2
  refine eq_of_equiv hN hS k2 h (Symb.Equiv.trans k3 ?_)
  simpa using Symb.Props.Equiv.apply h3 0 1 1 0

theorem mr_mr {i : ℕ} (h : i < num S) : mr S (mr S i) = i := by
  obtain ⟨_, h2, h3⟩ := mr_spec hN hS h
  obtain ⟨_, k2, k3⟩ := mr_spec hN hS h2
  refine eq_of_equiv hN hS k2 h (Symb.Equiv.trans k3 ?_)
  simpa using Symb.Props.Equiv.apply h3 (-1) 0 0 1

/-- `tof` applied twice is `(c:d) ↦ (-d:c-d)` -/
theorem mt_mt {i : ℕ} (h : i < num S) : mt S (mt S i) < num S ∧
    Equiv N (sy S (mt S (mt S i))).1 (sy S (mt S (mt S i))).2 (-(sy S i).2) ((sy S i).1 - (sy S i).2) := by
  obtain ⟨_, h2, h3⟩ := mt_spec hN hS h
  obtain ⟨_, k2, k3⟩ := mt_spec hN hS h2
  refine ⟨k2, Symb.Equiv.trans k3 ?_⟩
  simpa [sub_eq_add_neg] using Symb.Props.Equiv.apply h3 1 (-1) 1 0

theorem mt_mt_mt {i : ℕ} (h : i < num S) : mt S (mt S (mt S i)) = i := by
  obtain ⟨h2, h3⟩ := mt_mt hN hS h
  obtain ⟨_, k2, k3⟩ := mt_spec hN hS h2
  refine eq_of_equiv hN hS k2 h (Symb.Equiv.trans k3 ?_)
  refine Symb.Equiv.trans ?_ (Symb.Equiv.symm equiv_neg)
  simpa [sub_eq_add_neg] using Symb.Props.Equiv.apply h3 1 (-1) 1 0

theorem ms_mR {i : ℕ} (h : i < num S) : ms S (mR S i) = mr S i := by
  obtain ⟨_, h2, h3⟩ := mR_spec hN hS h
  obtain ⟨_, k2, k3⟩ := ms_spec hN hS h2
  obtain ⟨_, l2, l3⟩ := mr_spec hN hS h
  refine eq_of_equiv hN hS k2 l2 (Symb.Equiv.trans k3 (Symb.Equiv.trans ?_ (Symb.Equiv.symm l3)))
  simpa using Symb.Props.Equiv.apply h3 0 (-1) 1 0

theorem mR_ms {i : ℕ} (h : i < num S) : mR S (ms S i) = mr S i := by
  obtain ⟨_, h2, h3⟩ := ms_spec hN hS h
  obtain ⟨_, k2, k3⟩ := mR_spec hN hS h2
  obtain ⟨_, l2, l3⟩ := mr_spec hN hS h
  refine eq_of_equiv hN hS k2 l2 (Symb.Equiv.trans k3 (Symb.Equiv.trans ?_ (Symb.Equiv.symm l3)))
  have a1 := Symb.Equiv.trans (Symb.Props.Equiv.apply h3 0 1 1 0) equiv_neg
  simpa using a1

theorem ms_mr {i : ℕ} (h : i < num S) : ms S (mr S i) = mR S i := by
  rw [← ms_mR hN hS h, ms_ms hN hS (mR_spec hN hS h).2.1]

theorem mr_ms {i : ℕ} (h : i < num S) : mr S (ms S i) = mR S i := by
  have h2 := (ms_spec hN hS h).2.1
  rw [← mR_ms hN hS h2, ms_ms hN hS h]

theorem mR_mt_mt {i : ℕ} (h : i < num S) : mR S (mt S (mt S i)) = mt S (mR S i) := by
  obtain ⟨h2, h3⟩ := mt_mt hN hS h
  obtain ⟨_, k2, k3⟩ := mR_spec hN hS h2
  obtain ⟨_, l2, l3⟩ := mR_spec hN hS h
  obtain ⟨_, n2, n3⟩ := mt_spec hN hS l2
  refine eq_of_equiv hN hS k2 n2 (Symb.Equiv.trans k3 (Symb.Equiv.trans ?_ (Symb.Equiv.symm n3)))
  have a1 := Symb.Props.Equiv.apply h3 0 1 1 0
  have a2 := Symb.Props.Equiv.apply l3 1 (-1) 1 0
  simp only [zero_mul, one_mul, zero_add, add_zero, neg_mul] at a1 a2
  refine Symb.Equiv.trans a1 ?_
  refine Symb.Equiv.trans equiv_neg ?_
  rw [neg_neg, neg_sub]
  simpa [sub_eq_add_neg] using Symb.Equiv.symm a2

end maps

/-! ### the 2-term relations -/

/-- the invariant of the loop: `s` is `sof` and `r` the involution commuting with it that is used -/
structure Inv2 (n : ℕ) (s r : ℕ → ℕ) (st : Two) (m : ℕ) : Prop where
  lc : st.check.length = n
  li : st.ci.length = n
  done : ∀ i < m, st.check.getD i 0 ≠ 0
  cs : ∀ i < n, st.check.getD i 0 ≠ 0 → st.check.getD (s i) 0 ≠ 0
  cr : ∀ i < n, st.check.getD i 0 ≠ 0 → st.check.getD (r i) 0 ≠ 0
  es : ∀ i < n, st.check.getD i 0 ≠ 0 → st.ci.getD (s i) 0 = -st.ci.getD i 0
  er : ∀ i < n, st.check.getD i 0 ≠ 0 → st.ci.getD (r i) 0 = st.ci.getD i 0
  zero : ∀ i < n, st.check.getD i 0 ≠ 0 → st.ci.getD i 0 = 0 → s i = i ∨ s (r i) = i
  pos : ∀ i < n, st.check.getD i 0 ≠ 0 → 0 < st.ci.getD i 0 →
    ∃ (a g : ℕ), st.ci.getD i 0 = a + 1 ∧ st.gens[a]? = some g ∧ (i = g ∨ i = r g)
  gen : ∀ a g : ℕ, st.gens[a]? = some g → g < n ∧ st.check.getD g 0 ≠ 0 ∧ st.ci.getD g 0 = a + 1

/-- the two commuting involutions -/
structure Invol (n : ℕ) (s r : ℕ → ℕ) : Prop where
  s1 : ∀ i < n, s i < n
  s2 : ∀ i < n, s (s i) = i
  r1 : ∀ i < n, r i < n
  r2 : ∀ i < n, r (r i) = i
  sr : ∀ i < n, s (r i) = r (s i)

theorem Inv2.init (n : ℕ) (s r : ℕ → ℕ) : Inv2 n s r ⟨List.replicate n 0, List.replicate n 0, []⟩ 0 := by
  constructor <;> simp

theorem Invol.mem {n : ℕ} {s r : ℕ → ℕ} (h : Invol n s r) {i j : ℕ} (hi : i < n) (hj : j < n) :
    (s i ∈ [j, r j, s j, s (r j)] ↔ i ∈ [j, r j, s j, s (r j)]) ∧
    (r i ∈ [j, r j, s j, s (r j)] ↔ i ∈ [j, r j, s j, s (r j)]) := by
  have key : ∀ {i}, i < n → i ∈ [j, r j, s j, s (r j)] → s i ∈ [j, r j, s j, s (r j)] ∧ r i ∈ [j, r j, s j, s (r j)] := by
    intro i hi hm
    simp only [List.mem_cons, List.not_mem_nil, or_false] at hm ⊢
    rcases hm with rfl | rfl | rfl | rfl
    · exact ⟨by simp, by simp⟩
    · exact ⟨by simp, by simp [h.r2 j hj]⟩
    · exact ⟨by simp [h.s2 j hj], by simp [h.sr j hj]⟩
    · refine ⟨by simp [h.s2 _ (h.r1 j hj)], ?_⟩
      rw [← h.sr _ (h.r1 j hj), h.r2 j hj]
      simp
  refine ⟨⟨fun hm => ?_, fun hm => (key hi hm).1⟩, ⟨fun hm => ?_, fun hm => (key hi hm).2⟩⟩
  · have := (key (h.s1 i hi) hm).1
    rwa [h.s2 i hi] at this
  · have := (key (h.r1 i hi) hm).2
    rwa [h.r2 i hi] at this

/-- the step with a symbol fixed by one of the involutions -/
theorem Inv2.stepZero {n : ℕ} {s r : ℕ → ℕ} (h : Invol n s r) {st : Two} {j : ℕ} (hj : j < n) (hi : Inv2 n s r st j)
    (h0 : st.check.getD j 0 = 0) (hz : j = s j ∨ j = s (r j)) {check ci : List ℤ} (lc : check.length = n) (li : ci.length = n)
    (hc : ∀ i, check.getD i 0 = if i ∈ [j, r j, s j, s (r j)] then 1 else st.check.getD i 0)
    (hci : ∀ i, ci.getD i 0 = if i ∈ [j, r j, s j, s (r j)] then 0 else st.ci.getD i 0) :
    Inv2 n s r ⟨check, ci, st.gens⟩ (j + 1) := by
  have hmem := fun {i} (hin : i < n) => h.mem hin hj
  have hnot : ∀ i < n, st.check.getD i 0 ≠ 0 → i ∉ [j, r j, s j, s (r j)] := by
    intro i hin hne hm
    simp only [List.mem_cons, List.not_mem_nil, or_false] at hm
    rcases hm with rfl | rfl | rfl | rfl
    · exact hne h0
    · have := hi.cr _ hin hne
      rw [h.r2 j hj] at this; exact this h0
    · have := hi.cs _ hin hne
      rw [h.s2 j hj] at this; exact this h0
    · have := hi.cr _ (h.s1 _ hin) (hi.cs _ hin hne)
      rw [h.s2 _ (h.r1 j hj), h.r2 j hj] at this; exact this h0
  have hfix : ∀ i < n, i ∈ [j, r j, s j, s (r j)] → s i = i ∨ s (r i) = i := by
    intro i hin hm
    simp only [List.mem_cons, List.not_mem_nil, or_false] at hm
    rcases hz with hz | hz
    · left
      rcases hm with rfl | rfl | rfl | rfl
      · exact hz.symm
      · rw [h.sr j hj, ← hz]
      · rw [← hz, ← hz]
      · rw [h.s2 _ (h.r1 j hj), h.sr j hj, ← hz]
    · right
      have e1 : s j = r j := by rw [hz, h.s2 _ (h.r1 j hj), ← hz]
      rcases hm with rfl | rfl | rfl | rfl
      · exact hz.symm
      · rw [h.r2 j hj, e1]
      · rw [h.sr _ hin, h.s2 j hj, e1]
      · rw [← hz]
        exact hz.symm
  refine ⟨lc, li, ?_, ?_, ?_, ?_, ?_, ?_, ?_, ?_⟩ <;> simp only
  · intro i hij
    rw [hc]
    split_ifs with hm
    · norm_num
    · rcases Nat.lt_succ_iff_lt_or_eq.1 hij with h' | rfl
      · exact hi.done i h'
      · simp at hm
  · intro i hin hne
    rw [hc] at hne ⊢
    rw [if_congr (hmem hin).1 rfl rfl]
    split_ifs with hm
    · norm_num
    · rw [if_neg hm] at hne
      exact hi.cs i hin hne
  · intro i hin hne
    rw [hc] at hne ⊢
    rw [if_congr (hmem hin).2 rfl rfl]
    split_ifs with hm
    · norm_num
    · rw [if_neg hm] at hne
      exact hi.cr i hin hne
  · intro i hin hne
    rw [hc] at hne
    rw [hci, hci, if_congr (hmem hin).1 rfl rfl]
    split_ifs with hm
    · rfl
    · rw [if_neg hm] at hne
      exact hi.es i hin hne
  · intro i hin hne
    rw [hc] at hne
    rw [hci, hci, if_congr (hmem hin).2 rfl rfl]
    split_ifs with hm
    · rfl
    · rw [if_neg hm] at hne
      exact hi.er i hin hne
  · intro i hin hne he
    rw [hc] at hne
    rw [hci] at he
    by_cases hm : i ∈ [j, r j, s j, s (r j)]
    · exact hfix i hin hm
    · rw [if_neg hm] at hne he
      exact hi.zero i hin hne he
  · intro i hin hne hp
    rw [hc] at hne
    rw [hci] at hp ⊢
    by_cases hm : i ∈ [j, r j, s j, s (r j)]
    · rw [if_pos hm] at hp; exact absurd hp (lt_irrefl _)
    · rw [if_neg hm] at hne hp ⊢
      exact hi.pos i hin hne hp
  · intro a g hg
    obtain ⟨g1, g2, g3⟩ := hi.gen a g hg
    have hm := hnot g g1 g2
    refine ⟨g1, ?_, ?_⟩
    · rw [hc, if_neg hm]; exact g2
    · rw [hci, if_neg hm]; exact g3

/-- the step with a new generator -/
theorem Inv2.stepGen {n : ℕ} {s r : ℕ → ℕ} (h : Invol n s r) {st : Two} {j : ℕ} (hj : j < n) (hi : Inv2 n s r st j)
    (h0 : st.check.getD j 0 = 0) (hz : ¬ (j = s j ∨ j = s (r j))) {check ci : List ℤ} (lc : check.length = n) (li : ci.length = n)
    (hc : ∀ i, check.getD i 0 = if i ∈ [j, r j, s j, s (r j)] then 1 else st.check.getD i 0)
    (hci : ∀ i, ci.getD i 0 = if i ∈ [s j, s (r j)] then -(st.gens.length + 1 : ℤ) else
      if i ∈ [j, r j] then (st.gens.length + 1 : ℤ) else st.ci.getD i 0) :
    Inv2 n s r ⟨check, ci, st.gens ++ [j]⟩ (j + 1) := by
  have hmem := fun {i} (hin : i < n) => h.mem hin hj
  push Not at hz
  obtain ⟨hz1, hz2⟩ := hz
  have hnot : ∀ i < n, st.check.getD i 0 ≠ 0 → i ∉ [j, r j, s j, s (r j)] := by
    intro i hin hne hm
    simp only [List.mem_cons, List.not_mem_nil, or_false] at hm
    rcases hm with rfl | rfl | rfl | rfl
    · exact hne h0
    · have := hi.cr _ hin hne
      rw [h.r2 j hj] at this; exact this h0
    · have := hi.cs _ hin hne
      rw [h.s2 j hj] at this; exact this h0
    · have := hi.cr _ (h.s1 _ hin) (hi.cs _ hin hne)
      rw [h.s2 _ (h.r1 j hj), h.r2 j hj] at this; exact this h0
  have d1 : r j ≠ s j := fun e => hz2 (by rw [h.sr j hj, ← e, h.r2 j hj])
  have d2 : r j ≠ s (r j) := fun e => hz1 (by
    have := congrArg r e
    rw [h.r2 j hj, ← h.sr _ (h.r1 j hj), h.r2 j hj] at this
    exact this)
  have vj : ci.getD j 0 = st.gens.length + 1 := by rw [hci]; simp [hz1, hz2]
  have vr : ci.getD (r j) 0 = st.gens.length + 1 := by rw [hci]; simp [d1, d2]
  have vs : ci.getD (s j) 0 = -(st.gens.length + 1 : ℤ) := by rw [hci]; simp
  have vsr : ci.getD (s (r j)) 0 = -(st.gens.length + 1 : ℤ) := by rw [hci]; simp
  have vo : ∀ i, i ∉ [j, r j, s j, s (r j)] → ci.getD i 0 = st.ci.getD i 0 := by
    intro i hm
    simp only [List.mem_cons, List.not_mem_nil, or_false, not_or] at hm
    rw [hci]; simp [hm]
  refine ⟨lc, li, ?_, ?_, ?_, ?_, ?_, ?_, ?_, ?_⟩ <;> simp only
  · intro i hij
    rw [hc]
    split_ifs with hm
    · norm_num
    · rcases Nat.lt_succ_iff_lt_or_eq.1 hij with h' | rfl
      · exact hi.done i h'
      · simp at hm
  · intro i hin hne
    rw [hc] at hne ⊢
    rw [if_congr (hmem hin).1 rfl rfl]
    split_ifs with hm
    · norm_num
    · rw [if_neg hm] at hne
      exact hi.cs i hin hne
  · intro i hin hne
    rw [hc] at hne ⊢
    rw [if_congr (hmem hin).2 rfl rfl]
    split_ifs with hm
    · norm_num
    · rw [if_neg hm] at hne
      exact hi.cr i hin hne
  · intro i hin hne
    by_cases hm : i ∈ [j, r j, s j, s (r j)]
    · simp only [List.mem_cons, List.not_mem_nil, or_false] at hm
      rcases hm with rfl | rfl | rfl | rfl
      · rw [vs, vj]
      · rw [vsr, vr]
      · rw [h.s2 j hj, vs, vj, neg_neg]
      · rw [h.s2 _ (h.r1 j hj), vsr, vr, neg_neg]
    · rw [hc, if_neg hm] at hne
      rw [vo i hm, vo (s i) (fun hm' => hm ((hmem hin).1.1 hm'))]
      exact hi.es i hin hne
  · intro i hin hne
    by_cases hm : i ∈ [j, r j, s j, s (r j)]
    · simp only [List.mem_cons, List.not_mem_nil, or_false] at hm
      rcases hm with rfl | rfl | rfl | rfl
      · rw [vr, vj]
      · rw [h.r2 j hj, vr, vj]
      · rw [← h.sr j hj, vs, vsr]
      · rw [← h.sr _ (h.r1 j hj), h.r2 j hj, vs, vsr]
    · rw [hc, if_neg hm] at hne
      rw [vo i hm, vo (r i) (fun hm' => hm ((hmem hin).2.1 hm'))]
      exact hi.er i hin hne
  · intro i hin hne he
    by_cases hm : i ∈ [j, r j, s j, s (r j)]
    · exfalso
      simp only [List.mem_cons, List.not_mem_nil, or_false] at hm
      rcases hm with rfl | rfl | rfl | rfl
      · rw [vj] at he; omega
      · rw [vr] at he; omega
      · rw [vs] at he; omega
      · rw [vsr] at he; omega
    · rw [hc, if_neg hm] at hne
      rw [vo i hm] at he
      exact hi.zero i hin hne he
  · intro i hin hne hp
    by_cases hm : i ∈ [j, r j, s j, s (r j)]
    · simp only [List.mem_cons, List.not_mem_nil, or_false] at hm
      have hl : (st.gens ++ [j])[st.gens.length]? = some j := by simp
      rcases hm with rfl | rfl | rfl | rfl
      · exact ⟨_, _, vj, hl, Or.inl rfl⟩
      · exact ⟨_, _, vr, hl, Or.inr rfl⟩
      · rw [vs] at hp; omega
      · rw [vsr] at hp; omega
    · rw [hc, if_neg hm] at hne
      rw [vo i hm] at hp ⊢
      obtain ⟨a, g, h1, h2, h3⟩ := hi.pos i hin hne hp
      exact ⟨a, g, h1, by rw [List.getElem?_append_left (List.getElem?_eq_some_iff.1 h2).1]; exact h2, h3⟩
  · intro a g hg
    rcases Nat.lt_trichotomy a st.gens.length with ha | ha | ha
    · rw [List.getElem?_append_left ha] at hg
      obtain ⟨g1, g2, g3⟩ := hi.gen a g hg
      have hm := hnot g g1 g2
      refine ⟨g1, ?_, ?_⟩
      · rw [hc, if_neg hm]; exact g2
      · rw [vo g hm]; exact g3
    · subst ha
      simp only [List.getElem?_concat_length, Option.some.injEq] at hg
      subst hg
      exact ⟨hj, by rw [hc]; simp, vj⟩
    · rw [List.getElem?_eq_none (by simp; omega)] at hg
      cases hg

/-- one step that does nothing -/
theorem Inv2.skip {n : ℕ} {s r : ℕ → ℕ} {st : Two} {j : ℕ} (hi : Inv2 n s r st j) (h0 : st.check.getD j 0 ≠ 0) :
    Inv2 n s r st (j + 1) :=
  { hi with
    done := fun i h => by
      rcases Nat.lt_succ_iff_lt_or_eq.1 h with h' | rfl
      · exact hi.done i h'
      · exact h0 }

/-- the involution used besides `sof` -/
def rr (S : Symbdata) (pf : ℤ) (i : ℕ) : ℕ := if pf = 0 then i else if pf = -1 then mR S i else mr S i

section loop

variable {N : ℤ} (hN : 1 < N) {S : Symbdata} (hS : SymbOK N S)

include hN hS

theorem invol (pf : ℤ) : Invol (num S) (ms S) (rr S pf) := by
  refine ⟨fun i h => (ms_spec hN hS h).2.1, fun i h => ms_ms hN hS h, fun i h => ?_, fun i h => ?_, fun i h => ?_⟩ <;>
    unfold rr <;> split_ifs
  · exact h
  · exact (mR_spec hN hS h).2.1
  · exact (mr_spec hN hS h).2.1
  · rfl
  · exact mR_mR hN hS h
  · exact mr_mr hN hS h
  · rfl
  · rw [ms_mR hN hS h, mR_ms hN hS h]
  · rw [ms_mr hN hS h, mr_ms hN hS h]

theorem twoPM_spec {pf : ℤ} (hpf : pf ≠ 0) {st : Two} {j : ℕ} (hj : j < num S) (hi : Inv2 (num S) (ms S) (rr S pf) st j) :
    ∃ st', twoPM S pf st j = some st' ∧ Inv2 (num S) (ms S) (rr S pf) st' (j + 1) := by
  have hv := invol hN hS pf
  have hlt : ∀ k ∈ [j, rr S pf j, ms S j, ms S (rr S pf j)], k < num S := by
    intro k hk
    simp only [List.mem_cons, List.not_mem_nil, or_false] at hk
    rcases hk with rfl | rfl | rfl | rfl
    · exact hj
    · exact hv.r1 j hj
    · exact hv.s1 j hj
    · exact hv.s1 _ (hv.r1 j hj)
  have er : (if pf = -1 then S.rof (j : ℤ) else S.rsof (j : ℤ)) = some (rr S pf j : ℤ) := by
    unfold rr
    rw [if_neg hpf]
    split_ifs
    · exact (mR_spec hN hS hj).1
    · exact (mr_spec hN hS hj).1
  unfold twoPM
  rw [getAt_nat (by rw [hi.lc]; exact hj), Option.bind_some]
  by_cases h0 : st.check.getD j 0 = 0
  · rw [if_pos h0, er, Option.bind_some, (ms_spec hN hS hj).1, Option.bind_some,
      (ms_spec hN hS (hv.r1 j hj)).1, Option.bind_some]
    obtain ⟨check, e1, l1, v1⟩ := setAll_spec 1 [j, rr S pf j, ms S j, ms S (rr S pf j)] st.check
      (fun k hk => by rw [hi.lc]; exact hlt k hk)
    simp only [List.map_cons, List.map_nil] at e1
    rw [e1, Option.bind_some]
    by_cases hz : j = ms S j ∨ j = ms S (rr S pf j)
    · rw [if_pos (by exact_mod_cast hz)]
      obtain ⟨ci, e2, l2, v2⟩ := setAll_spec 0 [j, rr S pf j, ms S j, ms S (rr S pf j)] st.ci
        (fun k hk => by rw [hi.li]; exact hlt k hk)
      simp only [List.map_cons, List.map_nil] at e2
      rw [e2]
      exact ⟨_, rfl, hi.stepZero hv hj h0 hz (l1.trans hi.lc) (l2.trans hi.li) v1 v2⟩
    · rw [if_neg (by exact_mod_cast hz)]
      obtain ⟨ci, e2, l2, v2⟩ := setAll_spec (st.gens.length + 1) [j, rr S pf j] st.ci
        (fun k hk => by rw [hi.li]; exact hlt k (by simp at hk; rcases hk with rfl | rfl <;> simp))
      obtain ⟨ci', e3, l3, v3⟩ := setAll_spec (-(st.gens.length + 1)) [ms S j, ms S (rr S pf j)] ci
        (fun k hk => by rw [l2, hi.li]; exact hlt k (by simp at hk; rcases hk with rfl | rfl <;> simp))
      simp only [List.map_cons, List.map_nil] at e2 e3
      simp only [e2, Option.bind_some, e3, Option.map_some]
      exact ⟨_, rfl, hi.stepGen hv hj h0 hz (l1.trans hi.lc) (l3.trans (l2.trans hi.li)) v1
        (fun i => by rw [v3, v2])⟩
  · rw [if_neg h0]
    exact ⟨st, rfl, hi.skip h0⟩

theorem twoZ_spec {st : Two} {j : ℕ} (hj : j < num S) (hi : Inv2 (num S) (ms S) (rr S 0) st j) :
    ∃ st', twoZ S st j = some st' ∧ Inv2 (num S) (ms S) (rr S 0) st' (j + 1) := by
  have hv := invol hN hS 0
  have hr : ∀ k, rr S 0 k = k := fun k => by unfold rr; rw [if_pos rfl]
  have hlt : ∀ k ∈ [j, ms S j], k < num S := by
    intro k hk
    simp only [List.mem_cons, List.not_mem_nil, or_false] at hk
    rcases hk with rfl | rfl
    · exact hj
    · exact hv.s1 j hj
  have h4 : ∀ k, k ∈ [j, ms S j] ↔ k ∈ [j, rr S 0 j, ms S j, ms S (rr S 0 j)] := by
    intro k
    simp only [hr, List.mem_cons, List.not_mem_nil, or_false]
    tauto
  unfold twoZ
  rw [getAt_nat (by rw [hi.lc]; exact hj), Option.bind_some]
  by_cases h0 : st.check.getD j 0 = 0
  · rw [if_pos h0, (ms_spec hN hS hj).1, Option.bind_some]
    obtain ⟨check, e1, l1, v1⟩ := setAll_spec 1 [j, ms S j] st.check (fun k hk => by rw [hi.lc]; exact hlt k hk)
    simp only [List.map_cons, List.map_nil] at e1
    rw [e1, Option.bind_some]
    by_cases hz : j = ms S j
    · rw [if_pos (by exact_mod_cast hz)]
      obtain ⟨ci, e2, l2, v2⟩ := setAll_spec 0 [j, ms S j] st.ci (fun k hk => by rw [hi.li]; exact hlt k hk)
      simp only [List.map_cons, List.map_nil] at e2
      rw [e2]
      exact ⟨_, rfl, hi.stepZero hv hj h0 (Or.inl hz) (l1.trans hi.lc) (l2.trans hi.li)
        (fun i => by rw [v1, if_congr (h4 i) rfl rfl]) (fun i => by rw [v2, if_congr (h4 i) rfl rfl])⟩
    · rw [if_neg (by exact_mod_cast hz)]
      have k1 : j < st.ci.length := by rw [hi.li]; exact hj
      have k2 : ms S j < (st.ci.set j (st.gens.length + 1)).length := by rw [List.length_set, hi.li]; exact hv.s1 j hj
      simp only [setAt_nat k1, Option.bind_some, setAt_nat k2, Option.map_some]
      refine ⟨_, rfl, hi.stepGen hv hj h0 (by rw [hr]; tauto) (l1.trans hi.lc) (by simp [hi.li])
        (fun i => by rw [v1, if_congr (h4 i) rfl rfl]) (fun i => ?_)⟩
      rw [getD_set' k2, getD_set' k1]
      simp only [hr, List.mem_cons, List.not_mem_nil, or_false, or_self]
  · rw [if_neg h0]
    exact ⟨st, rfl, hi.skip h0⟩

/-- the loops over the 2-term relations -/
theorem twoTerm_spec (pf : ℤ) : ∃ st, twoTerm S pf = some st ∧ Inv2 (num S) (ms S) (rr S pf) st (num S) := by
  have key : ∀ m ≤ num S, ∃ st, (List.range m).foldlM (fun st j => if pf ≠ 0 then twoPM S pf st j else twoZ S st j)
      ⟨List.replicate (num S) 0, List.replicate (num S) 0, []⟩ = some st ∧ Inv2 (num S) (ms S) (rr S pf) st m := by
    intro m
    induction m with
    | zero => exact fun _ => ⟨_, rfl, Inv2.init _ _ _⟩
    | succ m ih =>
      intro hm
      obtain ⟨st, e, hi⟩ := ih (by omega)
      rw [List.range_succ, List.foldlM_append, e]
      by_cases hpf : pf = 0
      · subst hpf
        obtain ⟨st', e', hi'⟩ := twoZ_spec hN hS (by omega) hi
        exact ⟨st', by simpa using e', hi'⟩
      · obtain ⟨st', e', hi'⟩ := twoPM_spec hN hS hpf (by omega) hi
        exact ⟨st', by simpa [hpf] using e', hi'⟩
  exact key _ le_rfl

end loop

/-! ### functions with values in a field -/

section field

variable {K : Type*} [Field K]

/-- the value on the symbol with coordinate index `z` of the function with value `y a` on generator `a` -/
def sval (y : ℕ → K) (z : ℤ) : K := if 0 < z then y (z.toNat - 1) else if z < 0 then -y ((-z).toNat - 1) else 0

theorem sval_neg (y : ℕ → K) (z : ℤ) : sval y (-z) = -sval y z := by
  unfold sval
  rcases lt_trichotomy z 0 with h | rfl | h
  · rw [if_pos (by omega), if_neg (by omega), if_pos h, neg_neg]
  · simp
  · rw [if_neg (by omega), if_pos (by omega), if_pos h, neg_neg]

theorem sval_pos (y : ℕ → K) (a : ℕ) : sval y (a + 1 : ℤ) = y a := by
  unfold sval
  rw [if_pos (by omega)]
  congr 1

theorem sval_zero (y : ℕ → K) : sval y 0 = 0 := by simp [sval]

variable {n : ℕ} {s r : ℕ → ℕ} {st : Two}

/-- the functions given by values on the generators satisfy the 2-term relations -/
theorem Inv2.rel (hi : Inv2 n s r st n) (y : ℕ → K) {i : ℕ} (h : i < n) :
    sval y (st.ci.getD (s i) 0) = -sval y (st.ci.getD i 0) ∧ sval y (st.ci.getD (r i) 0) = sval y (st.ci.getD i 0) := by
  rw [hi.es i h (hi.done i h), hi.er i h (hi.done i h), sval_neg]
  exact ⟨rfl, rfl⟩

/-- a function with the 2-term relations is given by its values on the generators -/
theorem Inv2.determined (hv : Invol n s r) (hi : Inv2 n s r st n) (h2 : (2 : K) ≠ 0) {f : ℕ → K} (hs : ∀ i < n, f (s i) = -f i)
    (hr : ∀ i < n, f (r i) = f i) {i : ℕ} (h : i < n) : f i = sval (fun a => f (st.gens.getD a 0)) (st.ci.getD i 0) := by
  have hp : ∀ i < n, 0 < st.ci.getD i 0 → f i = sval (fun a => f (st.gens.getD a 0)) (st.ci.getD i 0) := by
    intro i h hpos
    obtain ⟨a, g, e1, e2, e3⟩ := hi.pos i h (hi.done i h) hpos
    have hg := (hi.gen a g e2).1
    rw [e1, sval_pos, List.getD_eq_getElem?_getD, e2, Option.getD_some]
    rcases e3 with rfl | rfl
    · rfl
    · exact hr g hg
  rcases lt_trichotomy (st.ci.getD i 0) 0 with hz | hz | hz
  · have e := hi.es i h (hi.done i h)
    have := hp (s i) (hv.s1 i h) (by rw [e]; omega)
    rw [e, sval_neg, hs i h] at this
    exact neg_injective this
  · rw [hz, sval_zero]
    have key : f i = -f i := by
      rcases hi.zero i h (hi.done i h) hz with e | e
      · have := hs i h; rwa [e] at this
      · have := hs (r i) (hv.r1 i h); rwa [e, hr i h] at this
    have : (2 : K) * f i = 0 := by linear_combination key
    exact (mul_eq_zero.1 this).resolve_left h2
  · exact hp i h hz

end field

end Eclib.Hom
