import Verif.Rank2.GModel
import Verif.Rank2.Els

/-!
# The sieves of `find_els2gens` and `find_glsgens`
-/

namespace Eclib.Rank2

set_option linter.unusedSectionVars false

open Eclib.Sqf (makenum makenumLoop decP Sq sqfmul sqfmul_spec shift_zero shift_half)
open Eclib.Bits

/-! ## products of generators -/

theorem makenumLoop_gen {l : List ℤ} (h : ∀ p ∈ l, Squarefree p) (mask i : ℕ) (hi : i + l.length ≤ 31) {ans : ℤ}
    (ha : Squarefree ans) :
    ∃ D, makenumLoop mask l i ans = some D ∧ Squarefree D ∧ Sq D (ans * decP l (mask >>> i)) := by
  induction l generalizing i ans with
  | nil => exact ⟨ans, by simp [makenumLoop], ha, by rw [decP, mul_one]; exact Sq.refl _⟩
  | cons p l ih =>
    rw [List.length_cons] at hi
    have hp := h p List.mem_cons_self
    have hl : ∀ q ∈ l, Squarefree q := fun q hq => h q (List.mem_cons_of_mem _ hq)
    rw [makenumLoop, testbit, if_pos (by omega), decP, shift_zero, shift_half]
    by_cases hb : mask.testBit i = true
    · simp only [hb, if_true]
      obtain ⟨s1, s2⟩ := sqfmul_spec ha hp
      obtain ⟨D, h1, h2, h3⟩ := ih hl (i + 1) (by omega) s1
      refine ⟨D, h1, h2, ?_⟩
      rw [← mul_assoc]
      have hne : decP l (mask >>> (i + 1)) ≠ 0 ∨ decP l (mask >>> (i + 1)) = 0 := (eq_or_ne _ _).symm
      rcases hne with hne | hne
      · exact h3.trans (s2.symm.mul (Sq.refl _)) (mul_ne_zero s1.ne_zero hne)
      · rw [hne, mul_zero]; exact ⟨0, by ring⟩
    · have hb : mask.testBit i = false := by simpa using hb
      simp only [hb]
      obtain ⟨D, h1, h2, h3⟩ := ih hl (i + 1) (by omega) ha
      exact ⟨D, h1, h2, by simpa using h3⟩

/-- the number `makenum` gives -/
def cl (gens : List ℤ) (m : ℕ) : ℤ := (makenum gens m).getD 0

/-- lists of generators -/
structure Gn (gens : List ℤ) : Prop where
  sqf : ∀ p ∈ gens, Squarefree p
  len : gens.length ≤ 30

section
variable {gens : List ℤ} (hg : Gn gens)
include hg

theorem Gn.cl_spec (m : ℕ) : makenum gens m = some (cl gens m) ∧ Squarefree (cl gens m) ∧ Sq (cl gens m) (decP gens m) := by
  obtain ⟨D, h1, h2, h3⟩ := makenumLoop_gen hg.sqf m 0 (by have := hg.len; omega) squarefree_one
  have e : cl gens m = D := by unfold cl makenum; rw [h1]; rfl
  rw [e]
  refine ⟨h1, h2, ?_⟩
  rwa [one_mul, Nat.shiftRight_zero] at h3

theorem Gn.dec_ne (m : ℕ) : decP gens m ≠ 0 := by
  have h := hg.sqf
  clear hg
  induction gens generalizing m with
  | nil => simp [decP]
  | cons p l ih =>
    rw [decP]
    refine mul_ne_zero ?_ (ih _ fun q hq => h q (List.mem_cons_of_mem _ hq))
    split_ifs
    · exact (h p List.mem_cons_self).ne_zero
    · norm_num

theorem Gn.cl_zero : cl gens 0 = 1 := by
  obtain ⟨-, h2, h3⟩ := hg.cl_spec 0
  rw [decP_zero] at h3
  exact Sqf.sq_squarefree h2 squarefree_one h3

theorem Gn.cl_xor (a b : ℕ) : Sq (cl gens a * cl gens b) (cl gens (a ^^^ b)) := by
  obtain ⟨-, -, h1⟩ := hg.cl_spec a
  obtain ⟨-, -, h2⟩ := hg.cl_spec b
  obtain ⟨-, -, h3⟩ := hg.cl_spec (a ^^^ b)
  have h4 := Sqf.sq_decP_xor gens a b
  exact ((h1.mul h2).trans h4 (mul_ne_zero (hg.dec_ne a) (hg.dec_ne b))).trans h3.symm (hg.dec_ne _)

theorem Gn.cl_prod (l : List ℕ) : Sq (cl gens (l.foldr (· ^^^ ·) 0)) ((l.map (cl gens)).prod) := by
  induction l with
  | nil =>
    simp only [List.foldr_nil, List.map_nil, List.prod_nil, hg.cl_zero]
    exact ⟨1, rfl⟩
  | cons a l ih =>
    rw [List.foldr_cons, List.map_cons, List.prod_cons]
    exact (hg.cl_xor a _).symm.trans ((Sq.refl _).mul ih)
      (mul_ne_zero (hg.cl_spec _).2.1.ne_zero (hg.cl_spec _).2.1.ne_zero)

end

theorem decP_two_pow (l : List ℤ) (i : ℕ) (h : i < l.length) : decP l (2 ^ i) = l[i] := by
  induction l generalizing i with
  | nil => simp at h
  | cons p l ih =>
    rw [decP]
    cases i with
    | zero => simp [decP_zero]
    | succ i =>
      rw [List.length_cons] at h
      have e : 2 ^ (i + 1) / 2 = 2 ^ i := by omega
      rw [e, ih i (by omega)]
      simp

theorem Gn.cl_two_pow {gens : List ℤ} (hg : Gn gens) (i : ℕ) (h : i < gens.length) : cl gens (2 ^ i) = gens[i] := by
  obtain ⟨-, h2, h3⟩ := hg.cl_spec (2 ^ i)
  rw [decP_two_pow gens i h] at h3
  exact Sqf.sq_squarefree h2 (hg.sqf _ (List.getElem_mem h)) h3

/-- masks and sublists -/
theorem mask_of_sublist {gens l : List ℤ} (h : l.Sublist gens) : ∃ m < 2 ^ gens.length, decP gens m = l.prod := by
  induction h with
  | slnil => exact ⟨0, by simp, rfl⟩
  | cons a h ih =>
    obtain ⟨m, h1, h2⟩ := ih
    refine ⟨2 * m, by rw [List.length_cons, pow_succ]; omega, ?_⟩
    rw [decP, show 2 * m / 2 = m by omega, h2]
    simp [Nat.testBit_zero]
  | cons_cons a h ih =>
    obtain ⟨m, h1, h2⟩ := ih
    refine ⟨2 * m + 1, by rw [List.length_cons, pow_succ]; omega, ?_⟩
    rw [decP, show (2 * m + 1) / 2 = m by omega, h2, List.prod_cons]
    simp [Nat.testBit_zero]

theorem sublist_of_mask (gens : List ℤ) (m : ℕ) (hm : m < 2 ^ gens.length) :
    ∃ l : List ℤ, l.Sublist gens ∧ l.prod = decP gens m ∧ (l = [] → m = 0) := by
  induction gens generalizing m with
  | nil => exact ⟨[], List.Sublist.refl _, rfl, fun _ => by simpa using hm⟩
  | cons p gens ih =>
    rw [List.length_cons, pow_succ] at hm
    obtain ⟨l, h1, h2, h3⟩ := ih (m / 2) (by omega)
    by_cases hb : m.testBit 0 = true
    · refine ⟨p :: l, h1.cons_cons p, ?_, fun h => absurd h (by simp)⟩
      rw [decP, if_pos hb, List.prod_cons, h2]
    · refine ⟨l, h1.cons p, ?_, fun h => ?_⟩
      · rw [decP, if_neg hb, one_mul, h2]
      · have := h3 h
        rw [Nat.testBit_zero] at hb
        simp at hb
        omega

section
variable {S : ℤ → Prop} {gens : List ℤ} (hg : Gn gens) (hb : IsBasis S gens)
include hg hb

theorem cl_inj {a b : ℕ} (ha : a < 2 ^ gens.length) (hb' : b < 2 ^ gens.length) (h : cl gens a = cl gens b) : a = b := by
  have h1 := hg.cl_xor a b
  rw [h] at h1
  have h2 : Sq (cl gens (a ^^^ b)) 1 := by
    refine h1.symm.trans ⟨cl gens b, by ring⟩ ?_
    have := (hg.cl_spec b).2.1.ne_zero
    exact mul_ne_zero this this
  have h3 : Sq (decP gens (a ^^^ b)) 1 :=
    (hg.cl_spec _).2.2.symm.trans h2 (hg.cl_spec _).2.1.ne_zero
  obtain ⟨l, k1, k2, k3⟩ := sublist_of_mask gens (a ^^^ b) (Nat.xor_lt_two_pow ha hb')
  have h4 := k3 (hb.ind l k1 (by rw [k2]; simpa [Sq] using h3))
  have h5 := congrArg (fun z => z ^^^ b) h4
  simpa [xor_xor_self] using h5

theorem cl_surj {D : ℤ} (hD : Squarefree D) (hS : S D) : ∃ m < 2 ^ gens.length, cl gens m = D := by
  obtain ⟨l, h1, h2⟩ := hb.gen D hS
  obtain ⟨m, h3, h4⟩ := mask_of_sublist h1
  refine ⟨m, h3, Sqf.sq_squarefree (hg.cl_spec m).2.1 hD ?_⟩
  refine (hg.cl_spec m).2.2.trans ?_ (hg.dec_ne m)
  rw [h4]
  exact Sq.symm h2

theorem cl_mem (h1 : S 1) (hx : ∀ a b e, S a → S b → Squarefree e → IsSquare (a * b * e) → S e) (m : ℕ)
    (hm : m < 2 ^ gens.length) : S (cl gens m) := by
  obtain ⟨l, k1, k2, -⟩ := sublist_of_mask gens m hm
  have key : ∀ l : List ℤ, l.Sublist gens → ∀ e, Squarefree e → IsSquare (l.prod * e) → S e := by
    intro l hl
    have hm : ∀ p ∈ l, p ∈ gens := fun p hp => hl.subset hp
    clear hl
    induction l with
    | nil =>
      intro e he hs
      rw [List.prod_nil] at hs
      exact hx 1 1 e h1 h1 he (by simpa using hs)
    | cons p l ih =>
      intro e he hs
      have ih' := ih fun q hq => hm q (List.mem_cons_of_mem _ hq)
      have hp := hm p List.mem_cons_self
      obtain ⟨s1, s2⟩ := sqfmul_spec (hg.sqf p hp) he
      have s3 : IsSquare (p * sqfmul p e * e) := by
        have : Sq (p * e) (sqfmul p e) := s2
        unfold Sq at this
        rwa [show p * e * sqfmul p e = p * sqfmul p e * e by ring] at this
      refine hx p (sqfmul p e) e (hb.mem p hp) (ih' _ s1 ?_) he s3
      have hpe : p * e ≠ 0 := mul_ne_zero (hg.sqf p hp).ne_zero he.ne_zero
      have h5 : Sq l.prod (p * e) := by
        rw [List.prod_cons] at hs
        unfold Sq
        rwa [show l.prod * (p * e) = p * l.prod * e by ring]
      exact h5.trans s2 hpe
  refine key l k1 _ (hg.cl_spec m).2.1 ?_
  rw [k2]
  exact (hg.cl_spec m).2.2.symm

end

/-! ## the state of the sieves -/

theorem indep_snoc {vs : List ℕ} (h : Indep vs) {v : ℕ} (hv : ¬ Span vs v) : Indep (vs ++ [v]) := by
  intro l hl h0
  obtain ⟨l1, l2, rfl, h1, h2⟩ := List.sublist_append_iff.1 hl
  rcases List.sublist_singleton.1 h2 with rfl | rfl
  · rw [List.append_nil] at h0 ⊢
    exact h l1 h1 h0
  · exfalso
    apply hv
    refine ⟨l1, h1, ?_⟩
    have key : ∀ l : List ℕ, (l ++ [v]).foldr (· ^^^ ·) 0 = l.foldr (· ^^^ ·) 0 ^^^ v := by
      intro l
      induction l with
      | nil => simp
      | cons a l ih => rw [List.cons_append, List.foldr_cons, ih, List.foldr_cons, Nat.xor_assoc]
    rw [key] at h0
    have h5 := congrArg (fun z => z ^^^ v) h0
    simpa [xor_xor_self] using h5

/-- the vectors `vs` were used for the generators -/
structure SI (n : ℕ) (gens0 : List ℤ) (P : ℕ → Prop) (B : BS) (gens : List ℤ) (vs : List ℕ) : Prop where
  ok : OK B vs
  dim : B.maxdim = n
  gens_eq : gens = vs.map (cl gens0)
  len : B.gens.length = vs.length
  ind : Indep vs
  mem : ∀ v ∈ vs, v < 2 ^ n ∧ P v

section
variable {n : ℕ} {gens0 : List ℤ} {P : ℕ → Prop} {B : BS} {gens : List ℤ} {vs : List ℕ}

theorem SI.mono {P' : ℕ → Prop} (h : SI n gens0 P B gens vs) (hp : ∀ v, P v → P' v) : SI n gens0 P' B gens vs :=
  { h with mem := fun v hv => ⟨(h.mem v hv).1, hp v (h.mem v hv).2⟩ }

theorem SI.span_card (h : SI n gens0 P B gens vs) : {x | Span vs x}.ncard = 2 ^ vs.length := by
  have e : {x | Span vs x} = {x | Span B.gens x} := by ext x; exact (h.ok.span x).symm
  have := Rank2.span_card h.ok.tri
  rw [h.ok.snd] at this
  rw [e, this, List.length_zip, h.ok.len, min_self, h.len]

theorem SI.le (h : SI n gens0 P B gens vs) : vs.length ≤ n := by
  rw [← h.len, ← h.dim]; exact piv_length h.ok

theorem SI.full (h : SI n gens0 P B gens vs) (hl : vs.length = n) {m : ℕ} (hm : m < 2 ^ n) : Span vs m := by
  have hf : (Set.Iio (2 ^ n) : Set ℕ).Finite := Set.finite_Iio _
  have hs : {x | Span vs x} ⊆ Set.Iio (2 ^ n) := fun x hx => span_lt (fun g hg => (h.mem g hg).1) hx
  have hc : (Set.Iio (2 ^ n) : Set ℕ).ncard ≤ {x | Span vs x}.ncard := by
    rw [h.span_card, hl, Set.ncard_eq_toFinset_card' (Set.Iio (2 ^ n))]
    simp
  have := Set.eq_of_subset_of_ncard_le hs hc hf
  have h2 : m ∈ {x | Span vs x} := by rw [this]; exact hm
  exact h2

theorem SI.cases (h : SI n gens0 P B gens vs) {v : ℕ} (hv : v < 2 ^ n) :
    (Span vs v ∧ B.reduce v 0 = some (0, -1)) ∨
    (¬ Span vs v ∧ ∃ j : ℕ, j < n ∧ (reduceP (B.pivs.zip B.gens) v).testBit j = true ∧
      B.reduce v 0 = some (reduceP (B.pivs.zip B.gens) v, (j : ℤ)) ∧
      ∃ B', B.augmentAt (reduceP (B.pivs.zip B.gens) v) j = some B' ∧ B'.pivs = B.pivs ++ [j] ∧
        ∀ P' : ℕ → Prop, (∀ u, P u → P' u) → P' v → SI n gens0 P' B' (gens ++ [cl gens0 v]) (vs ++ [v])) := by
  have hv' : v < 2 ^ B.maxdim := by rw [h.dim]; exact hv
  rcases reduce_eq h.ok hv' with ⟨h1, -, h3⟩ | ⟨h1, j, h2, h3, -, h5⟩
  · exact Or.inl ⟨h1, h3⟩
  · refine Or.inr ⟨h1, j, by rw [← h.dim]; exact h2, h3, h5, ?_⟩
    obtain ⟨B', k1, k2, k3, k4⟩ := ok_augmentAt h.ok (v := v) (w := reduceP (B.pivs.zip B.gens) v)
      (reduceP_lt (fun a ha => h.ok.lt a.2 (List.of_mem_zip ha).2) hv') h2 h3
      (by
        intro q hq
        rw [← h.ok.fst] at hq
        obtain ⟨a, ha, rfl⟩ := List.mem_map.1 hq
        exact reduceP_clear h.ok.tri v a ha)
      (by have := span_reduceP (B.pivs.zip B.gens) v; rwa [h.ok.snd, h.ok.span] at this)
    refine ⟨B', k1, ?_, fun P' hP hPv => ⟨k2, k3.trans h.dim, ?_, ?_, indep_snoc h.ind h1, ?_⟩⟩
    · unfold BS.augmentAt at k1
      split_ifs at k1
      rw [Option.some.injEq] at k1
      rw [← k1]
    · rw [List.map_append, h.gens_eq]; rfl
    · rw [k4, List.length_append, List.length_append, h.len]; rfl
    · intro u hu
      rcases List.mem_append.1 hu with hu | hu
      · exact ⟨(h.mem u hu).1, hP u (h.mem u hu).2⟩
      · rw [List.mem_singleton] at hu
        subst hu
        exact ⟨hv, hPv⟩

theorem si_new (hn : n ≤ 30) : SI n gens0 P (BS.new n) [] [] := by
  refine ⟨ok_new n (by omega), ?_, rfl, rfl, ?_, by simp⟩
  · show ((if (if (n : ℤ) < 0 then 0 else (n : ℤ)) > 64 then 64 else (if (n : ℤ) < 0 then 0 else (n : ℤ))).toNat) = n
    rw [if_neg (by omega : ¬ (n : ℤ) < 0), if_neg (by omega)]
    simp
  · intro l hl _
    rwa [List.sublist_nil] at hl

theorem reduceP_id {pg : List (ℕ × ℕ)} {v : ℕ} (h : ∀ a ∈ pg, v.testBit a.1 = false) : reduceP pg v = v := by
  induction pg with
  | nil => rfl
  | cons a pg ih =>
    rw [reduceP, List.foldl_cons, h a List.mem_cons_self]
    simp only [Bool.false_eq_true, if_false]
    exact ih fun b hb => h b (List.mem_cons_of_mem _ hb)

theorem mask_iff (h : OK B vs) {v : ℕ} : B.mask v = true ↔ ∃ j ∈ B.pivs, v.testBit j = true := by
  unfold BS.mask
  rw [decide_eq_true_eq]
  constructor
  · intro hne
    by_contra hc
    push Not at hc
    apply hne
    rw [Nat.and_comm, and_zero_iff]
    intro j hj
    simpa using hc j ((h.mask j).1 hj)
  · rintro ⟨j, h1, h2⟩ h0
    rw [Nat.and_comm, and_zero_iff] at h0
    rw [h0 j ((h.mask j).2 h1)] at h2
    cases h2

/-- the loops for the torsion -/
theorem torsLoop2_spec (hg : Gn gens0) (um : Bool) (k i : ℕ) (hk : i + k ≤ gens0.length) (hP : ∀ j < i + k, P (2 ^ j))
    {s : BS × List ℤ} (h : SI gens0.length gens0 P s.1 s.2 ((List.range i).map (2 ^ ·))) (hp : s.1.pivs = List.range i) :
    ∃ s', torsLoop2 um gens0 k i s = some s' ∧ SI gens0.length gens0 P s'.1 s'.2 ((List.range (i + k)).map (2 ^ ·)) := by
  induction k generalizing i s with
  | zero => exact ⟨s, rfl, h⟩
  | succ k ih =>
    have hi : i < gens0.length := by omega
    have h30 := hg.len
    rw [torsLoop2, if_neg (by omega)]
    have hm : ¬ ((um : Prop) ∧ s.1.mask (2 ^ i)) := by
      rintro ⟨-, hm⟩
      obtain ⟨j, h1, h2⟩ := (mask_iff h.ok).1 hm
      rw [hp, List.mem_range] at h1
      rw [Nat.testBit_two_pow] at h2
      have := of_decide_eq_true h2
      omega
    rw [if_neg hm]
    have hv : 2 ^ i < 2 ^ gens0.length := Nat.pow_lt_pow_right (by norm_num) hi
    have hr : reduceP (s.1.pivs.zip s.1.gens) (2 ^ i) = 2 ^ i := by
      apply reduceP_id
      intro a ha
      have := (List.of_mem_zip ha).1
      rw [hp, List.mem_range] at this
      rw [Nat.testBit_two_pow, decide_eq_false_iff_not]
      omega
    rcases h.cases hv with ⟨h1, -⟩ | ⟨-, j, h1, h2, h3, B', h4, h5, h6⟩
    · exfalso
      have := span_lt (n := i) (fun g hgm => by
        obtain ⟨j, hj, rfl⟩ := List.mem_map.1 hgm
        rw [List.mem_range] at hj
        exact Nat.pow_lt_pow_right (by norm_num) hj) h1
      omega
    · rw [hr, Nat.testBit_two_pow] at h2
      have hij : i = j := of_decide_eq_true h2
      subst hij
      rw [hr] at h3 h4
      simp only [h3, List.getElem?_eq_getElem hi]
      rw [if_neg (by omega), Int.toNat_natCast]
      simp only [h4]
      have e : (List.range (i + 1)).map (fun j => 2 ^ j) = (List.range i).map (fun j => 2 ^ j) ++ [2 ^ i] := by
        rw [List.range_succ, List.map_append]; rfl
      have h7 := h6 P (fun _ hu => hu) (hP i (by omega))
      rw [hg.cl_two_pow i hi, ← e] at h7
      have h8 := ih (i + 1) (by omega) (fun j hj => hP j (by omega)) (s := (B', s.2 ++ [gens0[i]])) h7
        (by rw [List.range_succ, ← hp]; exact h5)
      rwa [show i + 1 + k = i + (k + 1) by omega] at h8

theorem torsLoop2_full (hg : Gn gens0) (um : Bool) (k : ℕ) (hk : k ≤ gens0.length) (hP : ∀ j < k, P (2 ^ j)) :
    ∃ s, torsLoop2 um gens0 k 0 (BS.new gens0.length, []) = some s ∧
      SI gens0.length gens0 P s.1 s.2 ((List.range k).map (2 ^ ·)) ∧ s.2 = gens0.take k := by
  obtain ⟨s, h1, h2⟩ := torsLoop2_spec (P := P) hg um k 0 (by omega) (fun j hj => hP j (by omega)) (s := (BS.new gens0.length, []))
    (si_new hg.len) rfl
  rw [Nat.zero_add] at h2
  refine ⟨s, h1, h2, ?_⟩
  rw [h2.gens_eq, List.map_map]
  apply List.ext_getElem
  · simp; omega
  · intro i h3 h4
    rw [List.getElem_map, List.getElem_range, List.getElem_take]
    simp only [List.length_map, List.length_range] at h3
    exact hg.cl_two_pow i (by omega)

/-- the loop of `find_els2gens` -/
theorem els2Loop_spec (hg : Gn gens0) {t : ℤ → ℤ → Bool} {d : ℤ}
    (ht : ∀ m < 2 ^ gens0.length, t (cl gens0 m) (d.fdiv (cl gens0 m)) = true ↔ P m) (k v : ℕ) (hk : v + k ≤ 2 ^ gens0.length)
    {s : BS × List ℤ} (h : SI gens0.length gens0 P s.1 s.2 vs) :
    ∃ s' vs', els2Loop t gens0 d k v s = some s' ∧ SI gens0.length gens0 P s'.1 s'.2 vs' ∧ vs <+: vs' ∧ s.1.pivs <+: s'.1.pivs ∧
      (vs'.length = gens0.length ∨ ∀ m, v ≤ m → m < v + k → P m → s'.1.mask m = true ∨ Span vs' m) := by
  induction k generalizing v s vs with
  | zero => exact ⟨s, vs, rfl, h, List.prefix_refl _, List.prefix_refl _, Or.inr fun m h1 h2 => by omega⟩
  | succ k ih =>
    rw [els2Loop]
    have hlen : s.2.length = vs.length := by rw [h.gens_eq, List.length_map]
    by_cases hl : s.2.length < gens0.length
    swap
    · rw [if_neg hl]
      refine ⟨s, vs, rfl, h, List.prefix_refl _, List.prefix_refl _, Or.inl ?_⟩
      have := h.le
      omega
    · rw [if_pos hl]
      have hv : v < 2 ^ gens0.length := by omega
      have step : ∃ s1 vs1, els2Step t gens0 d v s = some s1 ∧ SI gens0.length gens0 P s1.1 s1.2 vs1 ∧ vs <+: vs1 ∧
          s.1.pivs <+: s1.1.pivs ∧ (P v → s1.1.mask v = true ∨ Span vs1 v) := by
        unfold els2Step
        by_cases hm : s.1.mask v = true
        · rw [if_pos hm]
          exact ⟨s, vs, rfl, h, List.prefix_refl _, List.prefix_refl _, fun _ => Or.inl hm⟩
        · rw [if_neg hm]
          rcases h.cases hv with ⟨h1, h2⟩ | ⟨-, j, h1, h2, h3, B', h4, h5, h6⟩
          · simp only [h2]
            rw [if_pos (by norm_num)]
            exact ⟨s, vs, rfl, h, List.prefix_refl _, List.prefix_refl _, fun _ => Or.inr h1⟩
          · simp only [h3]
            rw [if_neg (by omega), Int.toNat_natCast, (hg.cl_spec v).1]
            simp only
            by_cases hp : P v
            · rw [if_pos ((ht v hv).2 hp)]
              simp only [h4]
              exact ⟨_, _, rfl, h6 P (fun _ hu => hu) hp, List.prefix_append _ _, by rw [h5]; exact List.prefix_append _ _,
                fun _ => Or.inr (span_mem (by simp))⟩
            · rw [if_neg fun hh => hp ((ht v hv).1 hh)]
              exact ⟨s, vs, rfl, h, List.prefix_refl _, List.prefix_refl _, fun hh => absurd hh hp⟩
      obtain ⟨s1, vs1, g1, g2, g3, g4, g5⟩ := step
      simp only [g1]
      obtain ⟨s2, vs2, k1, k2, k3, k4, k5⟩ := ih (v + 1) (by omega) g2
      refine ⟨s2, vs2, k1, k2, g3.trans k3, g4.trans k4, ?_⟩
      rcases k5 with k5 | k5
      · exact Or.inl k5
      · refine Or.inr fun m hm1 hm2 hP => ?_
        rcases Nat.eq_or_lt_of_le hm1 with rfl | hlt
        · rcases g5 hP with g5 | g5
          · left
            rw [mask_iff g2.ok] at g5
            rw [mask_iff k2.ok]
            obtain ⟨j, j1, j2⟩ := g5
            exact ⟨j, k4.subset j1, j2⟩
          · right
            obtain ⟨l, l1, l2⟩ := g5
            exact ⟨l, l1.trans k3.sublist, l2⟩
        · exact k5 m (by omega) (by omega) hP

theorem span_P (hx : ∀ a b, a < 2 ^ n → b < 2 ^ n → P a → P b → P (a ^^^ b)) (h0 : P 0) (hm : ∀ v ∈ vs, v < 2 ^ n ∧ P v) {m : ℕ}
    (h : Span vs m) : m < 2 ^ n ∧ P m := by
  obtain ⟨l, hl, rfl⟩ := h
  have hm : ∀ g ∈ l, g < 2 ^ n ∧ P g := fun g hg => hm g (hl.subset hg)
  clear hl
  induction l with
  | nil => exact ⟨Nat.two_pow_pos n, h0⟩
  | cons a l ih =>
    obtain ⟨u1, u2⟩ := ih fun g hg => hm g (List.mem_cons_of_mem _ hg)
    obtain ⟨v1, v2⟩ := hm a List.mem_cons_self
    rw [List.foldr_cons]
    exact ⟨Nat.xor_lt_two_pow v1 u1, hx _ _ v1 u1 v2 u2⟩

theorem els2_full (hg : Gn gens0) {t : ℤ → ℤ → Bool} {d : ℤ}
    (ht : ∀ m < 2 ^ gens0.length, t (cl gens0 m) (d.fdiv (cl gens0 m)) = true ↔ P m)
    (hx : ∀ a b, a < 2 ^ gens0.length → b < 2 ^ gens0.length → P a → P b → P (a ^^^ b)) (h0 : P 0)
    {s : BS × List ℤ} (h : SI gens0.length gens0 P s.1 s.2 vs) :
    ∃ s' vs', els2Loop t gens0 d (2 ^ gens0.length - 1) 1 s = some s' ∧ SI gens0.length gens0 P s'.1 s'.2 vs' ∧ vs <+: vs' ∧
      ∀ m, m < 2 ^ gens0.length ∧ P m ↔ Span vs' m := by
  have hpos : 0 < 2 ^ gens0.length := Nat.two_pow_pos _
  obtain ⟨s', vs', h1, h2, h3, -, h5⟩ := els2Loop_spec hg ht (2 ^ gens0.length - 1) 1 (by omega) h
  refine ⟨s', vs', h1, h2, h3, fun m => ⟨fun ⟨hm, hP⟩ => ?_, span_P hx h0 h2.mem⟩⟩
  rcases h5 with h5 | h5
  · exact h2.full h5 hm
  · have hr := span_reduceP (s'.1.pivs.zip s'.1.gens) m
    rw [h2.ok.snd, h2.ok.span] at hr
    obtain ⟨r1, r2⟩ := span_P hx h0 h2.mem hr
    have e : m ^^^ (m ^^^ reduceP (s'.1.pivs.zip s'.1.gens) m) = reduceP (s'.1.pivs.zip s'.1.gens) m := by
      rw [← Nat.xor_assoc, Nat.xor_self, Nat.zero_xor]
    have q1 : reduceP (s'.1.pivs.zip s'.1.gens) m < 2 ^ gens0.length := by rw [← e]; exact Nat.xor_lt_two_pow hm r1
    have q2 : P (reduceP (s'.1.pivs.zip s'.1.gens) m) := by rw [← e]; exact hx _ _ hm r1 hP r2
    have hz := reduceP_eq_zero h2.ok.tri (v := m)
    rw [h2.ok.snd, h2.ok.span] at hz
    rw [← hz]
    have hc := reduceP_clear h2.ok.tri m
    by_contra hne
    rcases h5 (reduceP (s'.1.pivs.zip s'.1.gens) m) (by omega) (by omega) q2 with h6 | h6
    · obtain ⟨j, j1, j2⟩ := (mask_iff h2.ok).1 h6
      rw [← h2.ok.fst] at j1
      obtain ⟨a, ha, rfl⟩ := List.mem_map.1 j1
      rw [hc a ha] at j2
      cases j2
    · apply hne
      refine span_clear h2.ok.tri ?_ hc
      rw [h2.ok.snd, h2.ok.span]
      exact h6

/-- the loop of `find_glsgens` -/
theorem glsLoop_spec (hg : Gn gens0) {inf : Option (ℚ × ℚ) → Bool} {which : Bool} {t : ℤ → ℤ → Res} {d : ℤ}
    {Q : List (Option (ℚ × ℚ)) → ℕ → Prop} {Good : List (Option (ℚ × ℚ)) → Prop}
    (ht : ∀ m < 2 ^ gens0.length, t (cl gens0 m) (d.fdiv (cl gens0 m)) ≠ .no ∧
      ∀ x y z, t (cl gens0 m) (d.fdiv (cl gens0 m)) = .pt x y z → ∀ pts, Good pts →
        ∀ pts', pts' = (if inf (makepoint which (cl gens0 m) (d.fdiv (cl gens0 m)) x y z) then
          pts ++ [makepoint which (cl gens0 m) (d.fdiv (cl gens0 m)) x y z] else pts) →
        Good pts' ∧ Q pts' m ∧ ∀ u, Q pts u → Q pts' u)
    (k v : ℕ) (hk : v + k ≤ 2 ^ gens0.length)
    {s : GS} (h : SI gens0.length gens0 (Q s.pts) s.B s.gens vs) (hgood : Good s.pts) :
    ∃ s' vs', glsLoop inf which t gens0 d k v s = some (some s') ∧ SI gens0.length gens0 (Q s'.pts) s'.B s'.gens vs' ∧ Good s'.pts := by
  induction k generalizing v s vs with
  | zero => exact ⟨s, vs, rfl, h, hgood⟩
  | succ k ih =>
    rw [glsLoop]
    by_cases hl : s.gens.length < gens0.length
    swap
    · rw [if_neg hl]
      exact ⟨s, vs, rfl, h, hgood⟩
    · rw [if_pos hl]
      have hv : v < 2 ^ gens0.length := by omega
      have step : ∃ s1 vs1, glsStep inf which t gens0 d v s = some (some s1) ∧
          SI gens0.length gens0 (Q s1.pts) s1.B s1.gens vs1 ∧ Good s1.pts := by
        unfold glsStep
        rcases h.cases hv with ⟨h1, h2⟩ | ⟨-, j, h1, h2, h3, B', h4, h5, h6⟩
        · simp only [h2]
          rw [if_pos (by norm_num)]
          exact ⟨s, vs, rfl, h, hgood⟩
        · simp only [h3]
          rw [if_neg (by omega), (hg.cl_spec v).1]
          simp only
          obtain ⟨t1, t2⟩ := ht v hv
          cases hres : t (cl gens0 v) (d.fdiv (cl gens0 v)) with
          | no => exact absurd hres t1
          | unk => exact ⟨s, vs, rfl, h, hgood⟩
          | pt x y z =>
            obtain ⟨k1, k2, k3⟩ := t2 x y z hres s.pts hgood _ rfl
            simp only [glsUse, Int.toNat_natCast, h4]
            exact ⟨_, _, rfl, h6 _ k3 k2, k1⟩
      obtain ⟨s1, vs1, g1, g2, g3⟩ := step
      simp only [g1]
      exact ih (v + 1) (by omega) g2 g3

end

/-- the generators of a sieve are a basis -/
theorem SI.basis {S T : ℤ → Prop} {gens0 gens : List ℤ} {P : ℕ → Prop} {B : BS} {vs : List ℕ} (hg : Gn gens0) (hb : IsBasis S gens0)
    (h : SI gens0.length gens0 P B gens vs)
    (hT : ∀ D, T D ↔ ∃ m, m < 2 ^ gens0.length ∧ D = cl gens0 m ∧ Span vs m) : IsBasis T gens := by
  have hlt : ∀ g ∈ vs, g < 2 ^ gens0.length := fun g hgm => (h.mem g hgm).1
  refine ⟨?_, ?_, ?_, ?_⟩
  · intro D hD
    rw [h.gens_eq] at hD
    obtain ⟨v, hv, rfl⟩ := List.mem_map.1 hD
    exact (hT _).2 ⟨v, hlt v hv, rfl, span_mem hv⟩
  · intro D hD
    obtain ⟨m, -, rfl, l, hl, rfl⟩ := (hT D).1 hD
    exact ⟨l.map (cl gens0), by rw [h.gens_eq]; exact hl.map _, hg.cl_prod l⟩
  · intro l hl hsq
    rw [h.gens_eq, List.sublist_map_iff] at hl
    obtain ⟨l', hl', rfl⟩ := hl
    have hne : (l'.map (cl gens0)).prod ≠ 0 := by
      rw [Ne, List.prod_eq_zero_iff]
      intro h0
      obtain ⟨a, -, ha⟩ := List.mem_map.1 h0
      exact (hg.cl_spec a).2.1.ne_zero ha
    have h2 : Sq (cl gens0 (l'.foldr (· ^^^ ·) 0)) 1 := by
      refine (hg.cl_prod l').trans ?_ hne
      unfold Sq; rwa [mul_one]
    have h3 := Sqf.sq_squarefree (hg.cl_spec _).2.1 squarefree_one h2
    have h4 : l'.foldr (· ^^^ ·) 0 = 0 := by
      refine cl_inj hg hb (span_lt (fun g hgm => hlt g (hl'.subset hgm)) ⟨l', List.Sublist.refl _, rfl⟩) (Nat.two_pow_pos _) ?_
      rw [h3, hg.cl_zero]
    rw [h.ind l' hl' h4, List.map_nil]
  · have : {D | T D} = cl gens0 '' {m | Span vs m} := by
      ext D
      rw [Set.mem_ofPred_eq, hT, Set.mem_image]
      constructor
      · rintro ⟨m, -, rfl, hm⟩; exact ⟨m, hm, rfl⟩
      · rintro ⟨m, hm, rfl⟩; exact ⟨m, span_lt hlt hm, rfl, hm⟩
    rw [this, Set.InjOn.ncard_image, h.span_card, h.gens_eq, List.length_map]
    intro a ha b hb' hab
    exact cl_inj hg hb (span_lt hlt ha) (span_lt hlt hb') hab

end Eclib.Rank2
