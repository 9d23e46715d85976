import Verif.Bits.SqfDec
import Mathlib.Data.List.GetD
import Mathlib.Data.List.Forall2
import Mathlib.Data.List.Perm.Subperm
import Mathlib.Tactic.NormNum.Prime
import Mathlib.Tactic.FinCases

/-!
# C43: `sqfdiv`
-/

namespace Eclib.Sqf

open Eclib.Marith (val div)
open Eclib.Bits

theorem div_iff {p n : ℤ} : div p n = true ↔ p ∣ n := by
  unfold div
  split_ifs with h
  · subst h; simp
  · rw [decide_eq_true_eq, Int.dvd_iff_fmod_eq_zero]

/-! ## lists of sums -/

/-- the sums of all sublists, in the order in which `subgp` is filled -/
def spanL (G : List ℕ) : List ℕ := G.foldl (fun L g => L ++ L.map (· ^^^ g)) [0]

theorem spanL_concat (G : List ℕ) (g : ℕ) :
    spanL (G ++ [g]) = spanL G ++ (spanL G).map (· ^^^ g) := by
  rw [spanL, List.foldl_append]; rfl

theorem mem_spanL {G : List ℕ} {x : ℕ} : x ∈ spanL G ↔ Span G x := by
  induction G using List.reverseRecOn generalizing x with
  | nil => rw [span_nil]; simp [spanL]
  | append_singleton G g ih =>
    rw [spanL_concat, List.mem_append, ih, span_concat, List.mem_map]
    refine or_congr_right ⟨?_, fun h => ⟨_, ih.2 h, xor_xor_self _ _⟩⟩
    rintro ⟨y, hy, rfl⟩
    rw [xor_xor_self]; exact ih.1 hy

theorem spanL_length (G : List ℕ) : (spanL G).length = 2 ^ G.length := by
  induction G using List.reverseRecOn with
  | nil => rfl
  | append_singleton G g ih =>
    rw [spanL_concat, List.length_append, List.length_map, ih, List.length_append,
      List.length_singleton, pow_succ]
    omega

theorem tri_append {pg : List (ℕ × ℕ)} {a : ℕ × ℕ} (h : Tri (pg ++ [a])) :
    Tri pg ∧ a.2.testBit a.1 = true ∧ ∀ b ∈ pg, a.2.testBit b.1 = false := by
  obtain ⟨h1, h2⟩ := h
  rw [List.pairwise_append] at h2
  exact ⟨⟨fun b hb => h1 b (List.mem_append_left _ hb), h2.1⟩, h1 a (by simp),
    fun b hb => h2.2.2 b hb a (by simp)⟩

theorem spanL_nodup {pg : List (ℕ × ℕ)} (h : Tri pg) : (spanL (pg.map Prod.snd)).Nodup := by
  induction pg using List.reverseRecOn with
  | nil => simp [spanL]
  | append_singleton pg a ih =>
    obtain ⟨h1, h2, h3⟩ := tri_append h
    rw [List.map_append, List.map_singleton, spanL_concat, List.nodup_append]
    have ih' := ih h1
    refine ⟨ih', ?_, ?_⟩
    · refine ih'.map ?_
      intro x y hxy
      have := congrArg (· ^^^ a.2) hxy
      simpa only [xor_xor_self] using this
    · intro x hx y hy hxy
      obtain ⟨z, hz, rfl⟩ := List.mem_map.1 hy
      rw [mem_spanL] at hx hz
      have hs := span_xor hz hx
      rw [hxy, Nat.xor_comm z a.2, ← Nat.xor_assoc, xor_right_comm, Nat.xor_self,
        Nat.zero_xor] at hs
      have := span_clear h1 hs h3
      rw [this] at h2; simp at h2

theorem span_lt {G : List ℕ} {n x : ℕ} (h : ∀ g ∈ G, g < 2 ^ n) (hx : Span G x) : x < 2 ^ n := by
  obtain ⟨l, hl, rfl⟩ := hx
  have hl' : ∀ g ∈ l, g < 2 ^ n := fun g hg => h g (hl.subset hg)
  clear hl
  induction l with
  | nil => exact Nat.two_pow_pos n
  | cons a l ih =>
    rw [List.foldr_cons]
    exact Nat.xor_lt_two_pow (hl' a List.mem_cons_self) (ih fun g hg => hl' g (List.mem_cons_of_mem _ hg))

/-! ## admissible integers -/

/-- the integers that may be given to `usediv`: nonzero, with squarefree part supported on the
primes of the base that divide `dd` -/
def Adm (ps : List ℤ) (dd u : ℤ) : Prop :=
  ∃ s t : ℤ, u = s * t ^ 2 ∧ t ≠ 0 ∧ Squarefree s ∧
    ∀ q, Prime q → 0 < q → q ∣ s → q ∈ ps ∧ q ∣ dd

/-- masks of such integers -/
def Dm (dd : ℤ) (ps : List ℤ) (m : ℕ) : Prop :=
  m < 2 ^ (ps.length + 1) ∧ ∀ i p, ps[i]? = some p → m.testBit (i + 1) = true → p ∣ dd

theorem adm_mask {ps : List ℤ} {dd u : ℤ} (h : Base ps) (hu : Adm ps dd u) :
    ∃ m t, Dm dd ps m ∧ t ≠ 0 ∧ u = decP (-1 :: ps) m * t ^ 2 := by
  obtain ⟨s, t, h1, h2, h3, h4⟩ := hu
  obtain ⟨m, hm, rfl⟩ := exists_dec h h3 (fun q hq hq0 hqs => (h4 q hq hq0 hqs).1)
  refine ⟨m, t, ⟨hm, fun i p hi hb => ?_⟩, h2, h1⟩
  have hp := List.mem_of_getElem? hi
  exact (h4 p (h.prime p hp) (h.pos p hp) ((dvd_dec_get h hi m).2 hb)).2

theorem dm_xor {dd : ℤ} {ps : List ℤ} {a b : ℕ} (ha : Dm dd ps a) (hb : Dm dd ps b) :
    Dm dd ps (a ^^^ b) := by
  refine ⟨Nat.xor_lt_two_pow ha.1 hb.1, fun i p hi hx => ?_⟩
  rw [Nat.testBit_xor] at hx
  cases h1 : a.testBit (i + 1)
  · cases h2 : b.testBit (i + 1)
    · rw [h1, h2] at hx; cases hx
    · exact hb.2 i p hi h2
  · exact ha.2 i p hi h1

theorem dm_reduceP {dd : ℤ} {ps : List ℤ} {pg : List (ℕ × ℕ)} (h : ∀ a ∈ pg, Dm dd ps a.2) {m : ℕ}
    (hm : Dm dd ps m) : Dm dd ps (reduceP pg m) := by
  induction pg generalizing m with
  | nil => exact hm
  | cons a pg ih =>
    rw [reduceP, List.foldl_cons]
    apply ih (fun b hb => h b (List.mem_cons_of_mem _ hb))
    split_ifs
    · exact dm_xor hm (h a List.mem_cons_self)
    · exact hm

/-- the pair of an integer and its mask -/
def Rel (dd : ℤ) (ps : List ℤ) (u : ℤ) (m : ℕ) : Prop :=
  u ≠ 0 ∧ Dm dd ps m ∧ Sq u (decP (-1 :: ps) m)

theorem rel_mem {dd : ℤ} {ps : List ℤ} {us : List ℤ} {ms : List ℕ}
    (hr : List.Forall₂ (Rel dd ps) us ms) {m : ℕ} (hm : m ∈ ms) : ∃ u, Rel dd ps u m := by
  induction hr with
  | nil => simp at hm
  | cons h _ ih =>
    rcases List.mem_cons.1 hm with rfl | hm
    · exact ⟨_, h⟩
    · exact ih hm

theorem sq_span {dd : ℤ} {ps : List ℤ} (h : Base ps) {us : List ℤ} {ms : List ℕ}
    (hr : List.Forall₂ (Rel dd ps) us ms) {x : ℤ} (hx : x ≠ 0) :
    (∃ m, Span ms m ∧ Sq x (decP (-1 :: ps) m)) ↔ ∃ l : List ℤ, l.Sublist us ∧ Sq x l.prod := by
  have h0 : ∀ m, decP (-1 :: ps) m ≠ 0 := fun m => (squarefree_dec h m).ne_zero
  induction hr generalizing x with
  | nil =>
    simp only [span_nil, List.sublist_nil, exists_eq_left, List.prod_nil]
    rw [(dec_one h (Nat.two_pow_pos _)).2 rfl]
  | @cons u m0 us ms hum hr ih =>
    obtain ⟨hu0, hdm, hsq⟩ := hum
    have hassoc : ∀ y, Sq (x * u) y ↔ Sq x (u * y) := by
      intro y; unfold Sq; rw [mul_assoc]
    have ih1 := ih hx
    have ih2 := ih (mul_ne_zero hx hu0)
    constructor
    · rintro ⟨m, hm, hs⟩
      rw [span_cons] at hm
      rcases hm with hm | hm
      · obtain ⟨l, hl, hs⟩ := ih1.1 ⟨m, hm, hs⟩
        exact ⟨l, hl.cons u, hs⟩
      · obtain ⟨l, hl, hs2⟩ := ih2.1 ⟨m ^^^ m0, hm,
          (hs.mul hsq).trans (sq_decP_xor _ _ _) (mul_ne_zero (h0 _) (h0 _))⟩
        refine ⟨u :: l, hl.cons_cons u, ?_⟩
        rw [List.prod_cons]; exact (hassoc _).1 hs2
    · rintro ⟨l, hl, hs⟩
      rw [List.sublist_cons_iff] at hl
      rcases hl with hl | ⟨r, rfl, hl⟩
      · obtain ⟨m, hm, hs⟩ := ih1.2 ⟨l, hl, hs⟩
        exact ⟨m, span_cons.2 (Or.inl hm), hs⟩
      · rw [List.prod_cons] at hs
        obtain ⟨m, hm, hs2⟩ := ih2.2 ⟨r, hl, (hassoc _).2 hs⟩
        refine ⟨m ^^^ m0, span_cons.2 (Or.inr (by rwa [xor_xor_self])), ?_⟩
        have h1 : Sq (x * u * u) (decP (-1 :: ps) m * decP (-1 :: ps) m0) := hs2.mul hsq
        have h2 := h1.trans (sq_decP_xor _ _ _) (mul_ne_zero (h0 _) (h0 _))
        have h3 : Sq x (x * u * u) := ⟨x * u, by ring⟩
        exact h3.trans h2 (mul_ne_zero (mul_ne_zero hx hu0) hu0)

/-! ## the invariant -/

/-- state of the class after integers with masks `ms`; `pg` has the pivots (bit numbers) and the
masks of the generators -/
structure Inv (dd : ℤ) (posd : Bool) (ps : List ℤ) (ms : List ℕ) (D : SD) (pg : List (ℕ × ℕ)) :
    Prop where
  pb : D.pb = ps
  pivs : D.pivs = pg.map fun a => (a.1 : ℤ) - 1
  gens : D.gens = pg.map fun a => decP (-1 :: ps) a.2
  tri : Tri pg
  dm : ∀ a ∈ pg, Dm dd ps a.2
  neg : ∀ a ∈ pg, a.1 = 0 → a.2 = 1
  span : ∀ x, Span (pg.map Prod.snd) x ↔ Span ms x
  subgp : D.subgp = (spanL (pg.map Prod.snd)).map (decP (-1 :: ps))
  dsq : Squarefree D.d
  ddvd : ∀ i q, ps[i]? = some q → (q ∣ D.d ↔ q ∣ dd ∧ i + 1 ∉ pg.map Prod.fst)
  np : D.np = ps.countP fun q => div q D.d
  npn : D.np + pg.length + (if D.positive then 0 else 1) = (ps.countP fun q => div q dd) + 1
  positive : D.positive = true ↔ 0 ∈ pg.map Prod.fst
  factor : D.factor + (if posd then 1 else 0) = pg.length
  maxngens : D.maxngens = (ps.countP fun q => div q dd) + 1
  maxnsub : D.maxnsub = 2 * 2 ^ (ps.countP fun q => div q dd)

theorem testBit_lt {m n i : ℕ} (hm : m < 2 ^ n) (hb : m.testBit i = true) : i < n := by
  by_contra hc
  have : 2 ^ n ≤ 2 ^ i := Nat.pow_le_pow_right (by decide) (by omega)
  rw [Nat.testBit_lt_two_pow (by omega)] at hb
  cases hb

theorem abs_dec {ps : List ℤ} (h : Base ps) (m : ℕ) :
    |decP (-1 :: ps) m| = decP (-1 :: ps) (if m.testBit 0 then m ^^^ 1 else m) := by
  have hp := decP_pos h (m / 2)
  split_ifs with hb
  · have h1 : (m ^^^ 1).testBit 0 = false := by rw [Nat.testBit_xor, hb]; rfl
    have h2 : (m ^^^ 1) / 2 = m / 2 := by
      apply Nat.eq_of_testBit_eq
      intro i
      rw [← Nat.testBit_succ, Nat.testBit_xor, Nat.testBit_succ, Nat.testBit_succ]
      simp
    rw [dec_eq, dec_eq, if_pos hb, h1, h2, neg_one_mul, abs_neg, abs_of_pos hp]
    simp
  · rw [dec_eq, if_neg hb, one_mul, abs_of_pos hp]

theorem reduceP_zero (pg : List (ℕ × ℕ)) : reduceP pg 0 = 0 := by
  induction pg with
  | nil => rfl
  | cons a pg ih => rw [reduceP, List.foldl_cons]; simpa [reduceP] using ih

theorem redLoop_eq {dd : ℤ} {ps : List ℤ} (h : Base ps) {pg : List (ℕ × ℕ)}
    (hb : ∀ a ∈ pg, a.2.testBit a.1 = true) (hd : ∀ a ∈ pg, Dm dd ps a.2)
    (hn : ∀ a ∈ pg, a.1 = 0 → a.2 = 1) {m : ℕ} (hm : m < 2 ^ (ps.length + 1)) :
    redLoop ps ((pg.map fun a => (a.1 : ℤ) - 1).zip (pg.map fun a => decP (-1 :: ps) a.2))
      (decP (-1 :: ps) m) = some (decP (-1 :: ps) (reduceP pg m)) := by
  induction pg generalizing m with
  | nil => rfl
  | cons a pg ih =>
    have ih' := fun {m} => ih (fun b hb' => hb b (List.mem_cons_of_mem _ hb'))
      (fun b hb' => hd b (List.mem_cons_of_mem _ hb'))
      (fun b hb' => hn b (List.mem_cons_of_mem _ hb')) (m := m)
    have hb' := hb a List.mem_cons_self
    have hd' := hd a List.mem_cons_self
    have hn' := hn a List.mem_cons_self
    obtain ⟨p, g⟩ := a
    simp only at hb' hd' hn'
    rw [List.map_cons, List.map_cons, List.zip_cons_cons, redLoop]
    by_cases h1 : decP (-1 :: ps) m = 1
    · rw [if_pos h1, (dec_one h hm).1 h1, reduceP_zero]
    · rw [if_neg h1]
      have hlt : (if m.testBit p then m ^^^ g else m) < 2 ^ (ps.length + 1) := by
        split_ifs
        · exact Nat.xor_lt_two_pow hm hd'.1
        · exact hm
      rcases p with _ | i
      · rw [if_pos (by simp)]
        have hg := hn' rfl
        subst hg
        rw [abs_dec h, ih' hlt]; rfl
      · rw [if_neg (by push_cast; omega)]
        have hi : i < ps.length := by
          have := testBit_lt hd'.1 hb'
          omega
        have hg : ps[i]? = some ps[i] := List.getElem?_eq_getElem hi
        have ht : (((i + 1 : ℕ) : ℤ) - 1).toNat = i := by push_cast; omega
        simp only [ht, hg]
        have he : (if div ps[i] (decP (-1 :: ps) m) = true then
            sqfmul (decP (-1 :: ps) m) (decP (-1 :: ps) g) else decP (-1 :: ps) m) =
            decP (-1 :: ps) (if m.testBit (i + 1) then m ^^^ g else m) := by
          by_cases hc : m.testBit (i + 1) = true
          · rw [if_pos hc, if_pos (div_iff.2 ((dvd_dec_get h hg m).2 hc)), sqfmul_dec h]
          · rw [if_neg hc, if_neg (fun hx => hc ((dvd_dec_get h hg m).1 (div_iff.1 hx)))]
        rw [he, ih' hlt]; rfl

theorem val_ne_zero {p e : ℤ} (hp : Prime p) (he : e ≠ 0) : val p e ≠ 0 ↔ p ∣ e := by
  have hp2 : 2 ≤ |p| := by
    have := hp.ne_zero
    have h1 := hp.not_isUnit
    rw [Int.isUnit_iff] at h1
    rw [Int.abs_eq_natAbs]; omega
  obtain ⟨h1, h2⟩ := (Marith.Props.C06_val_big p e).1 hp2 he
  constructor
  · intro h
    exact (dvd_pow_self p h).trans h1
  · intro h h0
    rw [h0, zero_add, pow_one] at h2
    exact h2 h

theorem findPiv_some {pb : List ℤ} {d e : ℤ} {n i : ℕ} {p : ℤ} (h : findPiv pb d e n = some (i, p)) :
    pb[i]? = some p ∧ p ∣ d ∧ val p e ≠ 0 := by
  induction n with
  | zero => simp [findPiv] at h
  | succ n ih =>
    rw [findPiv] at h
    cases hg : pb[n]? with
    | none => simp [hg] at h
    | some q =>
      simp only [hg] at h
      split_ifs at h with hc
      · simp only [Option.some.injEq, Prod.mk.injEq] at h
        obtain ⟨rfl, rfl⟩ := h
        exact ⟨hg, div_iff.1 hc.1, hc.2⟩
      · exact ih h

theorem findPiv_none {pb : List ℤ} {d e : ℤ} {n : ℕ} (hn : n ≤ pb.length)
    (h : findPiv pb d e n = none) {i : ℕ} (hi : i < n) {p : ℤ} (hp : pb[i]? = some p) (hd : p ∣ d) :
    val p e = 0 := by
  induction n with
  | zero => omega
  | succ n ih =>
    rw [findPiv, List.getElem?_eq_getElem (show n < pb.length by omega)] at h
    simp only at h
    split_ifs at h with hc
    rcases Nat.lt_succ_iff_lt_or_eq.1 hi with h1 | rfl
    · exact ih (by omega) h h1
    · rw [List.getElem?_eq_getElem (show i < pb.length by omega)] at hp
      have hp' := Option.some.inj hp
      rw [hp'] at hc
      by_contra hne
      exact hc ⟨div_iff.2 hd, hne⟩

theorem countP_remove {l : List ℤ} (hl : l.Nodup) {p : ℤ} (hp : p ∈ l) {P Q : ℤ → Bool}
    (h1 : P p = true) (h2 : Q p = false) (h3 : ∀ q ∈ l, q ≠ p → P q = Q q) :
    l.countP P = l.countP Q + 1 := by
  induction l with
  | nil => simp at hp
  | cons a l ih =>
    obtain ⟨ha, hl'⟩ := List.nodup_cons.1 hl
    rw [List.countP_cons, List.countP_cons]
    by_cases hap : a = p
    · subst hap
      have : l.countP P = l.countP Q := by
        apply List.countP_congr
        intro q hq
        rw [h3 q (List.mem_cons_of_mem _ hq) (fun h => ha (h ▸ hq))]
      rw [this, h1, h2]; simp
    · have hp' : p ∈ l := by
        rcases List.mem_cons.1 hp with h | h
        · exact absurd h.symm hap
        · exact h
      rw [ih hl' hp' (fun q hq => h3 q (List.mem_cons_of_mem _ hq)),
        h3 a List.mem_cons_self hap]
      omega

/-- there are at most as many pivots as primes dividing `dd`, plus one -/
theorem tri_length {dd : ℤ} {ps : List ℤ} (h : Base ps) {pg : List (ℕ × ℕ)} (ht : Tri pg)
    (hd : ∀ a ∈ pg, Dm dd ps a.2) : pg.length ≤ (ps.countP fun q => div q dd) + 1 := by
  have hS : (-1 :: ps).Nodup := by
    rw [List.nodup_cons]
    refine ⟨fun hm => ?_, h.nodup⟩
    have := h.pos _ hm
    omega
  have hlt : ∀ a ∈ pg, a.1 < (-1 :: ps).length := by
    intro a ha
    have := testBit_lt (hd a ha).1 (ht.1 a ha)
    rw [List.length_cons]; exact this
  have h1 : (pg.map fun a => (-1 :: ps).getD a.1 0).Nodup := by
    have hn := tri_nodup ht
    rw [List.nodup_iff_pairwise_ne, List.pairwise_map] at hn ⊢
    refine List.Pairwise.imp_of_mem ?_ hn
    intro a b ha hb hab he
    rw [List.getD_eq_getElem _ _ (hlt a ha), List.getD_eq_getElem _ _ (hlt b hb)] at he
    exact hab ((List.Nodup.getElem_inj_iff hS).1 he)
  have h2 : (pg.map fun a => (-1 :: ps).getD a.1 0) ⊆ -1 :: ps.filter (fun q => div q dd) := by
    intro x hx
    obtain ⟨a, ha, rfl⟩ := List.mem_map.1 hx
    have hb := ht.1 a ha
    have hl := hlt a ha
    have hda := hd a ha
    obtain ⟨p, g⟩ := a
    rcases p with _ | i
    · exact List.mem_cons_self
    · simp only [List.length_cons] at hl
      have hi : i < ps.length := by omega
      have hg : ps[i]? = some ps[i] := List.getElem?_eq_getElem hi
      simp only [List.getD_cons_succ, List.getD_eq_getElem _ _ hi]
      refine List.mem_cons_of_mem _ (List.mem_filter.2 ⟨List.getElem_mem _, ?_⟩)
      exact div_iff.2 (hda.2 i _ hg hb)
  have := (List.subperm_of_subset h1 h2).length_le
  rw [List.length_map, List.length_cons, ← List.countP_eq_length_filter] at this
  exact this

theorem initLoop_eq (dd : ℤ) (l : List ℤ) (d : ℤ) (np : ℕ) :
    initLoop dd l (d, np) =
      (d * (l.filter fun q => div q dd).prod, np + l.countP fun q => div q dd) := by
  induction l generalizing d np with
  | nil => simp [initLoop]
  | cons p l ih =>
    rw [initLoop, List.filter_cons, List.countP_cons]
    by_cases h : div p dd = true
    · rw [if_pos h, ih, if_pos h, if_pos h, List.prod_cons]
      refine Prod.ext ?_ ?_ <;> simp only <;> ring
    · rw [if_neg h, ih, if_neg h, if_neg h, add_zero]

theorem prod_filter {ps : List ℤ} (h : Base ps) (P : ℤ → Bool) :
    Squarefree (ps.filter P).prod ∧
      ∀ q, Prime q → 0 < q → (q ∣ (ps.filter P).prod ↔ q ∈ ps ∧ P q = true) := by
  induction ps with
  | nil =>
    refine ⟨squarefree_one, fun q hq _ => iff_of_false (fun h => ?_) (by simp)⟩
    exact hq.not_isUnit (isUnit_of_dvd_one h)
  | cons p ps ih =>
    obtain ⟨h1, h2, h3, h4⟩ := h.tail
    obtain ⟨i1, i2⟩ := ih h1
    rw [List.filter_cons]
    by_cases hP : P p = true
    · rw [if_pos hP, List.prod_cons]
      refine ⟨?_, fun q hq hq0 => ?_⟩
      · rw [squarefree_mul_iff]
        refine ⟨IsCoprime.isRelPrime ?_, h3.irreducible.squarefree, i1⟩
        rw [h3.coprime_iff_not_dvd, i2 p h3 h4]
        exact fun h => h2 h.1
      · rw [hq.dvd_mul, i2 q hq hq0, List.mem_cons]
        constructor
        · rintro (hd | ⟨hm, hc⟩)
          · have := prime_eq hq h3 hq0 h4 hd
            subst this
            exact ⟨Or.inl rfl, hP⟩
          · exact ⟨Or.inr hm, hc⟩
        · rintro ⟨rfl | hm, hc⟩
          · exact Or.inl dvd_rfl
          · exact Or.inr ⟨hm, hc⟩
    · rw [if_neg hP]
      refine ⟨i1, fun q hq hq0 => ?_⟩
      rw [i2 q hq hq0, List.mem_cons]
      constructor
      · rintro ⟨hm, hc⟩; exact ⟨Or.inr hm, hc⟩
      · rintro ⟨rfl | hm, hc⟩
        · exact absurd hc hP
        · exact ⟨hm, hc⟩

/-- the masks given at the start -/
def ms0 (posd : Bool) : List ℕ := if posd then [1] else []

theorem inv_new {dd : ℤ} (posd : Bool) {ps : List ℤ} (h : Base ps)
    (hn : (ps.countP fun q => div q dd) < 30) :
    ∃ D pg, SD.new dd posd ps = some D ∧ Inv dd posd ps (ms0 posd) D pg := by
  have h0 := (dec_one h (Nat.two_pow_pos _)).2 rfl
  have h1 : decP (-1 :: ps) 1 = -1 := by
    rw [dec_eq]
    have : decP ps (1 / 2) = 1 := by
      have := h0
      rw [dec_eq] at this
      simpa using this
    rw [this]; rfl
  obtain ⟨f1, f2⟩ := prod_filter h fun q => div q dd
  have hd2 : ∀ (i : ℕ) (q : ℤ), ps[i]? = some q → (q ∣ (ps.filter fun q => div q dd).prod ↔ q ∣ dd) := by
    intro i q hi
    have hm := List.mem_of_getElem? hi
    rw [f2 q (h.prime q hm) (h.pos q hm)]
    simp only [hm, true_and, div_iff]
  have hnp : (ps.countP fun q => div q dd) =
      ps.countP fun q => div q (ps.filter fun q => div q dd).prod := by
    apply List.countP_congr
    intro q hq
    rw [div_iff, div_iff, f2 q (h.prime q hq) (h.pos q hq)]
    simp [hq, div_iff]
  simp only [SD.new, initLoop_eq, one_mul, zero_add]
  rw [if_neg (by omega)]
  cases posd
  · refine ⟨_, [], rfl, ?_⟩
    refine { pb := rfl, pivs := rfl, gens := rfl, tri := ⟨by simp, List.Pairwise.nil⟩,
             dm := by simp, neg := by simp, span := fun x => Iff.rfl, subgp := ?_, dsq := f1,
             ddvd := ?_, np := hnp, npn := ?_, positive := by simp, factor := by simp,
             maxngens := rfl, maxnsub := rfl }
    · simp [spanL, h0]
    · intro i q hi; rw [hd2 i q hi]; simp
    · simp
  · refine ⟨_, [(0, 1)], rfl, ?_⟩
    have hlt : 1 < 2 ^ (ps.length + 1) := by
      rw [pow_succ]; have := Nat.two_pow_pos ps.length; omega
    refine { pb := rfl, pivs := by simp, gens := by simp [h1], tri := ⟨by simp, by simp⟩,
             dm := ?_, neg := by simp, span := fun x => Iff.rfl, subgp := ?_, dsq := f1,
             ddvd := ?_, np := hnp, npn := ?_, positive := by simp, factor := by simp,
             maxngens := rfl, maxnsub := rfl }
    · intro a ha
      rw [List.mem_singleton] at ha; subst ha
      refine ⟨hlt, fun i p _ hb => ?_⟩
      rw [Nat.testBit_succ] at hb; simp at hb
    · simp [spanL, h0, h1]
    · intro i q hi; rw [hd2 i q hi]; simp
    · simp

theorem mask_one {m : ℕ} (h0 : m ≠ 0) (h : ∀ i, m.testBit (i + 1) = false) : m = 1 := by
  have h2 : m / 2 = 0 := by
    apply Nat.eq_of_testBit_eq
    intro i
    rw [← Nat.testBit_succ, h, Nat.zero_testBit]
  omega

theorem inv_usediv {dd : ℤ} {posd : Bool} {ps : List ℤ} (h : Base ps) {ms : List ℕ} {D : SD}
    {pg : List (ℕ × ℕ)} (hI : Inv dd posd ps ms D pg) {m : ℕ} (hm : Dm dd ps m) {t : ℤ} (ht : t ≠ 0) :
    ∃ D' pg', D.usediv (decP (-1 :: ps) m * t ^ 2) = some D' ∧ Inv dd posd ps (ms ++ [m]) D' pg' := by
  have hred : redLoop D.pb (D.pivs.zip D.gens) (sqfred (decP (-1 :: ps) m * t ^ 2) D.pb) =
      some (decP (-1 :: ps) (reduceP pg m)) := by
    rw [hI.pb, sqfred_eq h ht, hI.pivs, hI.gens]
    exact redLoop_eq h hI.tri.1 hI.dm hI.neg hm.1
  have hdm := dm_reduceP hI.dm hm
  have hspan : Span ms (m ^^^ reduceP pg m) := (hI.span _).1 (span_reduceP pg m)
  have hz : reduceP pg m = 0 ↔ Span ms m := by rw [reduceP_eq_zero hI.tri, hI.span]
  have hcl := reduceP_clear hI.tri m
  rw [SD.usediv, hred]
  simp only
  obtain ⟨w, hw⟩ : ∃ w, w = reduceP pg m := ⟨_, rfl⟩
  rw [← hw] at hdm hspan hz hcl ⊢
  by_cases h1 : decP (-1 :: ps) w = 1
  · rw [if_pos h1]
    have h0 := (dec_one h hdm.1).1 h1
    refine ⟨D, pg, rfl, { hI with span := fun x => ?_ }⟩
    rw [hI.span, span_concat]
    constructor
    · exact Or.inl
    · rintro (hx | hx)
      · exact hx
      · have := span_xor hx (hz.1 h0)
        rwa [xor_xor_self] at this
  · rw [if_neg h1]
    have h0 : w ≠ 0 := fun hc => h1 ((dec_one h hdm.1).2 hc)
    have hlen : ∀ p, w.testBit p = true → pg.length < (ps.countP fun q => div q dd) + 1 := by
      intro p hp
      have := tri_length h (tri_concat hI.tri hp hcl) (fun a ha => by
        rcases List.mem_append.1 ha with ha | ha
        · exact hI.dm a ha
        · rw [List.mem_singleton] at ha; subst ha; exact hdm)
      rw [List.length_append, List.length_singleton] at this
      omega
    have hcap : ∀ p, w.testBit p = true →
        ¬ (D.maxngens ≤ D.pivs.length ∨ D.maxnsub < 2 * D.subgp.length) := by
      intro p hp
      have := hlen p hp
      rw [hI.maxngens, hI.maxnsub, hI.pivs, hI.subgp, List.length_map, List.length_map, spanL_length,
        List.length_map]
      have := Nat.pow_le_pow_right (n := 2) (by decide) (show pg.length ≤ ps.countP fun q => div q dd by omega)
      omega
    have hspn : ∀ p : ℕ, ∀ x, Span ((pg ++ [(p, w)]).map Prod.snd) x ↔ Span (ms ++ [m]) x := by
      intro p x
      rw [List.map_append, List.map_singleton, span_concat_congr hspan, span_concat, span_concat,
        hI.span, hI.span]
    have hdm' : ∀ p : ℕ, ∀ a ∈ pg ++ [(p, w)], Dm dd ps a.2 := by
      intro p a ha
      rcases List.mem_append.1 ha with ha | ha
      · exact hI.dm a ha
      · rw [List.mem_singleton] at ha; subst ha; exact hdm
    have hsub : ∀ p : ℕ, D.subgp ++ D.subgp.map (fun x => sqfmul x (decP (-1 :: ps) w)) =
        (spanL ((pg ++ [(p, w)]).map Prod.snd)).map (decP (-1 :: ps)) := by
      intro p
      rw [List.map_append, List.map_singleton, spanL_concat, List.map_append, hI.subgp, List.map_map,
        List.map_map]
      congr 1
      apply List.map_congr_left
      intro x _
      exact sqfmul_dec h x w
    have hw0 : decP (-1 :: ps) w ≠ 0 := (squarefree_dec h w).ne_zero
    cases hf : findPiv D.pb D.d (decP (-1 :: ps) w) D.pb.length with
    | some ip =>
      obtain ⟨i, p⟩ := ip
      obtain ⟨g1, g2, g3⟩ := findPiv_some hf
      rw [hI.pb] at g1
      have hpm := List.mem_of_getElem? g1
      have hp := h.prime p hpm
      have hp0 := h.pos p hpm
      rw [val_ne_zero hp hw0, dvd_dec_get h g1] at g3
      have hnp : i + 1 ∉ pg.map Prod.fst := ((hI.ddvd i p g1).1 g2).2
      rw [if_neg (hcap _ g3)]
      obtain ⟨c, hc⟩ := g2
      have hfd : D.d.fdiv p = c := by rw [hc, Int.mul_fdiv_cancel_left _ hp.ne_zero]
      have hcs : Squarefree c ∧ ¬ p ∣ c := by
        have := hI.dsq
        rw [hc] at this
        obtain ⟨r, _, r2⟩ := squarefree_mul_iff.1 this
        exact ⟨r2, fun hpc => hp.not_isUnit (r dvd_rfl hpc)⟩
      have hother : ∀ q ∈ ps, q ≠ p → (q ∣ c ↔ q ∣ D.d) := by
        intro q hq hne
        rw [hc, (h.prime q hq).dvd_mul]
        constructor
        · exact Or.inr
        · rintro (hd | hd)
          · exact absurd (prime_eq (h.prime q hq) hp (h.pos q hq) hp0 hd) hne
          · exact hd
      have hcount : D.np = (ps.countP fun q => div q c) + 1 := by
        rw [hI.np]
        refine countP_remove h.nodup hpm (div_iff.2 ⟨c, hc⟩) ?_ ?_
        · rw [Bool.eq_false_iff]; exact fun hx => hcs.2 (div_iff.1 hx)
        · intro q hq hne
          rw [Bool.eq_iff_iff, div_iff, div_iff]
          exact (hother q hq hne).symm
      refine ⟨_, pg ++ [(i + 1, w)], rfl, ?_⟩
      refine { pb := hI.pb, pivs := ?_, gens := ?_, tri := tri_concat hI.tri g3 hcl, dm := hdm' _,
               neg := ?_, span := hspn _, subgp := hsub _, dsq := ?_, ddvd := ?_, np := ?_,
               npn := ?_, positive := ?_, factor := ?_, maxngens := hI.maxngens,
               maxnsub := hI.maxnsub }
      · simp [hI.pivs]
      · simp [hI.gens]
      · intro a ha ha0
        rcases List.mem_append.1 ha with ha | ha
        · exact hI.neg a ha ha0
        · rw [List.mem_singleton] at ha; subst ha; simp at ha0
      · simp only [hfd]; exact hcs.1
      · intro j q hj
        simp only [hfd]
        rw [List.map_append, List.map_singleton, List.mem_append, List.mem_singleton]
        have hq := List.mem_of_getElem? hj
        by_cases hqp : q = p
        · subst hqp
          have : j = i := by
            obtain ⟨hi', hi2⟩ := List.getElem?_eq_some_iff.1 g1
            obtain ⟨hj', hj2⟩ := List.getElem?_eq_some_iff.1 hj
            exact (List.Nodup.getElem_inj_iff h.nodup).1 (hj2.trans hi2.symm)
          subst this
          exact iff_of_false hcs.2 (fun hx => hx.2 (Or.inr rfl))
        · rw [hother q hq hqp, hI.ddvd j q hj]
          have : j ≠ i := by
            rintro rfl
            rw [g1] at hj
            exact hqp (Option.some.inj hj).symm
          constructor
          · rintro ⟨a1, a2⟩
            exact ⟨a1, fun hx => hx.elim a2 (fun hx => this (by omega))⟩
          · rintro ⟨a1, a2⟩
            exact ⟨a1, fun hx => a2 (Or.inl hx)⟩
      · simp only [hfd]; omega
      · have := hI.npn
        simp only [List.length_append, List.length_singleton]
        omega
      · show D.positive = true ↔ _
        rw [hI.positive]
        simp
      · have := hI.factor
        simp only [List.length_append, List.length_singleton]
        omega
    | none =>
      have hbits : ∀ i, w.testBit (i + 1) = false := by
        intro i
        rw [Bool.eq_false_iff]
        intro hb
        have hi : i < ps.length := by have := testBit_lt hdm.1 hb; omega
        have hg : ps[i]? = some ps[i] := List.getElem?_eq_getElem hi
        have hnp : i + 1 ∉ pg.map Prod.fst := by
          intro hx
          obtain ⟨a, ha, hae⟩ := List.mem_map.1 hx
          have := hcl a ha
          rw [hae, hb] at this
          cases this
        have hd := (hI.ddvd i _ hg).2 ⟨hdm.2 i _ hg hb, hnp⟩
        have hv := findPiv_none le_rfl hf (by rw [hI.pb]; exact hi) (by rw [hI.pb]; exact hg) hd
        exact ((val_ne_zero (h.prime _ (List.getElem_mem _)) hw0).2 ((dvd_dec_get h hg w).2 hb)) hv
      have hw1 := mask_one h0 hbits
      have hb0 : w.testBit 0 = true := by rw [hw1]; rfl
      have hneg : decP (-1 :: ps) w < 0 := (dec_neg h w).2 hb0
      have hpos : D.positive = false := by
        rw [Bool.eq_false_iff]
        intro hx
        obtain ⟨a, ha, hae⟩ := List.mem_map.1 (hI.positive.1 hx)
        have := hcl a ha
        rw [hae, hb0] at this
        cases this
      rw [if_neg (hcap _ hb0)]
      simp only
      rw [if_pos ⟨hneg, hpos⟩]
      refine ⟨_, pg ++ [(0, w)], rfl, ?_⟩
      refine { pb := hI.pb, pivs := ?_, gens := ?_, tri := tri_concat hI.tri hb0 hcl, dm := hdm' _,
               neg := ?_, span := hspn _, subgp := hsub _, dsq := hI.dsq, ddvd := ?_, np := hI.np,
               npn := ?_, positive := ?_, factor := ?_, maxngens := hI.maxngens,
               maxnsub := hI.maxnsub }
      · simp [hI.pivs]
      · simp [hI.gens]
      · intro a ha ha0
        rcases List.mem_append.1 ha with ha | ha
        · exact hI.neg a ha ha0
        · rw [List.mem_singleton] at ha; subst ha; exact hw1
      · intro j q hj
        rw [List.map_append, List.map_singleton, List.mem_append, List.mem_singleton]
        rw [hI.ddvd j q hj]
        constructor
        · rintro ⟨a1, a2⟩
          exact ⟨a1, fun hx => hx.elim a2 (fun hx => by omega)⟩
        · rintro ⟨a1, a2⟩
          exact ⟨a1, fun hx => a2 (Or.inl hx)⟩
      · have := hI.npn
        rw [hpos] at this
        simp only [List.length_append, List.length_singleton, if_true] at this ⊢
        simp at this
        omega
      · simp
      · have := hI.factor
        simp only [List.length_append, List.length_singleton]
        omega

theorem inv_run {dd : ℤ} {posd : Bool} {ps : List ℤ} (h : Base ps) {ms : List ℕ} {D : SD}
    {pg : List (ℕ × ℕ)} (hI : Inv dd posd ps ms D pg) (us : List ℤ) (hu : ∀ u ∈ us, Adm ps dd u) :
    ∃ D' pg' ns, D.run us = some D' ∧ Inv dd posd ps (ms ++ ns) D' pg' ∧
      List.Forall₂ (Rel dd ps) us ns := by
  induction us generalizing D pg ms with
  | nil => exact ⟨D, pg, [], rfl, by simpa using hI, List.Forall₂.nil⟩
  | cons u us ih =>
    obtain ⟨m, t, h1, h2, h3⟩ := adm_mask h (hu u List.mem_cons_self)
    obtain ⟨D1, pg1, e1, I1⟩ := inv_usediv h hI h1 h2
    obtain ⟨D2, pg2, ns, e2, I2, hr⟩ := ih I1 fun v hv => hu v (List.mem_cons_of_mem _ hv)
    refine ⟨D2, pg2, m :: ns, ?_, by simpa using I2, List.Forall₂.cons ⟨?_, h1, ?_⟩ hr⟩
    · rw [SD.run, h3, e1]; exact e2
    · rw [h3]; exact mul_ne_zero (squarefree_dec h m).ne_zero (pow_ne_zero _ h2)
    · rw [h3]; exact ⟨decP (-1 :: ps) m * t, by ring⟩

/-- what was put into the subgroup, including `-1` when the constructor was told `posd` -/
def used (posd : Bool) (us : List ℤ) : List ℤ := if posd then -1 :: us else us

theorem rel_used {dd : ℤ} {ps : List ℤ} (h : Base ps) (posd : Bool) {us : List ℤ} {ns : List ℕ}
    (hr : List.Forall₂ (Rel dd ps) us ns) :
    List.Forall₂ (Rel dd ps) (used posd us) (ms0 posd ++ ns) := by
  cases posd
  · exact hr
  · refine List.Forall₂.cons ⟨by decide, ⟨?_, fun i p _ hb => ?_⟩, ?_⟩ hr
    · rw [pow_succ]; have := Nat.two_pow_pos ps.length; omega
    · rw [Nat.testBit_succ] at hb; simp at hb
    · have h0 := (dec_one h (Nat.two_pow_pos _)).2 rfl
      have : decP ps (1 / 2) = 1 := by
        rw [dec_eq] at h0
        simpa using h0
      rw [dec_eq, this]
      exact ⟨1, by simp⟩

/-! ## `getdivs` -/

theorem divLoop_mem {d : ℤ} {l : List ℤ} {L : List ℤ} {x : ℤ} :
    x ∈ divLoop d l L ↔
      ∃ y ∈ L, ∃ s : List ℤ, s.Sublist (l.filter fun q => div q d) ∧ x = s.prod * y := by
  induction l generalizing L x with
  | nil =>
    simp [divLoop]
  | cons p l ih =>
    rw [divLoop, List.filter_cons]
    by_cases hp : div p d = true
    · rw [if_pos hp, if_pos hp, ih]
      constructor
      · rintro ⟨y, hy, s, hs, rfl⟩
        rcases List.mem_append.1 hy with hy | hy
        · exact ⟨y, hy, s, hs.cons p, rfl⟩
        · obtain ⟨z, hz, rfl⟩ := List.mem_map.1 hy
          exact ⟨z, hz, p :: s, hs.cons_cons p, by rw [List.prod_cons]; ring⟩
      · rintro ⟨y, hy, s, hs, rfl⟩
        rw [List.sublist_cons_iff] at hs
        rcases hs with hs | ⟨r, rfl, hs⟩
        · exact ⟨y, List.mem_append_left _ hy, s, hs, rfl⟩
        · exact ⟨p * y, List.mem_append_right _ (List.mem_map.2 ⟨y, hy, rfl⟩), r, hs,
            by rw [List.prod_cons]; ring⟩
    · rw [if_neg hp, if_neg hp, ih]

theorem divLoop_length (d : ℤ) (l L : List ℤ) :
    (divLoop d l L).length = L.length * 2 ^ (l.countP fun q => div q d) := by
  induction l generalizing L with
  | nil => simp [divLoop]
  | cons p l ih =>
    rw [divLoop, List.countP_cons]
    by_cases hp : div p d = true
    · rw [if_pos hp, if_pos hp, ih, List.length_append, List.length_map, pow_succ]; ring
    · rw [if_neg hp, if_neg hp, ih, add_zero]

theorem divLoop_nodup {d : ℤ} {l L : List ℤ} (h : Base l) (hL : L.Nodup)
    (hx : ∀ x ∈ L, ∀ p ∈ l, ¬ p ∣ x) : (divLoop d l L).Nodup := by
  induction l generalizing L with
  | nil => exact hL
  | cons p l ih =>
    obtain ⟨h1, h2, h3, h4⟩ := h.tail
    rw [divLoop]
    split_ifs
    · refine ih h1 ?_ ?_
      · rw [List.nodup_append]
        refine ⟨hL, hL.map fun x y hxy => mul_left_cancel₀ h3.ne_zero hxy, ?_⟩
        rintro x hx1 y hy rfl
        obtain ⟨z, _, rfl⟩ := List.mem_map.1 hy
        exact hx _ hx1 p List.mem_cons_self (dvd_mul_right p z)
      · intro x hx1 q hq hd
        rcases List.mem_append.1 hx1 with hx1 | hx1
        · exact hx x hx1 q (List.mem_cons_of_mem _ hq) hd
        · obtain ⟨z, hz, rfl⟩ := List.mem_map.1 hx1
          rcases (h1.prime q hq).dvd_mul.1 hd with hd | hd
          · have := prime_eq (h1.prime q hq) h3 (h1.pos q hq) h4 hd
            subst this
            exact h2 hq
          · exact hx z hz q (List.mem_cons_of_mem _ hq) hd
    · exact ih h1 hL fun x hx1 q hq => hx x hx1 q (List.mem_cons_of_mem _ hq)

theorem base_sublist {ps s : List ℤ} (h : Base ps) (hs : s.Sublist ps) : Base s :=
  ⟨fun p hp => h.prime p (hs.subset hp), fun p hp => h.pos p (hs.subset hp), h.nodup.sublist hs⟩

theorem prod_base {s : List ℤ} (h : Base s) :
    0 < s.prod ∧ Squarefree s.prod ∧ ∀ q, Prime q → 0 < q → (q ∣ s.prod ↔ q ∈ s) := by
  obtain ⟨h1, h2⟩ := prod_filter h fun _ => true
  rw [List.filter_true] at h1 h2
  exact ⟨List.prod_pos h.pos, h1, fun q hq hq0 => by rw [h2 q hq hq0]; simp⟩

/-- the representatives listed: the masks of admissible integers with all pivot bits cleared -/
theorem mem_divs {dd : ℤ} {posd : Bool} {ps : List ℤ} (h : Base ps) {ms : List ℕ} {D : SD}
    {pg : List (ℕ × ℕ)} (hI : Inv dd posd ps ms D pg) (x : ℤ) :
    x ∈ divLoop D.d ps (if D.positive then [1] else [1, -1]) ↔
      ∃ m, x = decP (-1 :: ps) m ∧ Dm dd ps m ∧ ∀ a ∈ pg, m.testBit a.1 = false := by
  rw [divLoop_mem]
  constructor
  · rintro ⟨y, hy, s, hs, rfl⟩
    have hsb := base_sublist h (hs.trans List.filter_sublist)
    obtain ⟨p1, p2, p3⟩ := prod_base hsb
    have hy1 : y = 1 ∨ y = -1 ∧ D.positive = false := by
      revert hy
      cases D.positive
      · simp
      · simp
    have hsf : Squarefree (s.prod * y) := by
      rcases hy1 with rfl | ⟨rfl, _⟩
      · rwa [mul_one]
      · intro z hz
        exact p2 z (by rwa [mul_neg_one, dvd_neg] at hz)
    have hdv : ∀ q, Prime q → 0 < q → (q ∣ s.prod * y ↔ q ∈ s) := by
      intro q hq hq0
      rw [← p3 q hq hq0]
      rcases hy1 with rfl | ⟨rfl, _⟩
      · rw [mul_one]
      · rw [mul_neg_one, dvd_neg]
    obtain ⟨m, hm, he⟩ := exists_dec h hsf (fun q hq hq0 hqs =>
      (hs.trans List.filter_sublist).subset ((hdv q hq hq0).1 hqs))
    have hbit : ∀ i q, ps[i]? = some q → m.testBit (i + 1) = true → q ∣ D.d := by
      intro i q hi hb
      have hq := List.mem_of_getElem? hi
      have := (dvd_dec_get h hi m).2 hb
      rw [← he, hdv q (h.prime q hq) (h.pos q hq)] at this
      exact div_iff.1 (List.mem_filter.1 (hs.subset this)).2
    refine ⟨m, he, ⟨hm, fun i q hi hb => ((hI.ddvd i q hi).1 (hbit i q hi hb)).1⟩, ?_⟩
    intro a ha
    rw [Bool.eq_false_iff]
    intro hb
    obtain ⟨k, g⟩ := a
    rcases k with _ | i
    · have hneg := (dec_neg h m).2 hb
      rw [← he] at hneg
      rcases hy1 with rfl | ⟨rfl, hp⟩
      · rw [mul_one] at hneg; omega
      · have := hI.positive.2 (List.mem_map.2 ⟨_, ha, rfl⟩)
        rw [hp] at this; cases this
    · have hi : i < ps.length := by have := testBit_lt hm hb; simp only at this; omega
      have hg : ps[i]? = some ps[i] := List.getElem?_eq_getElem hi
      exact ((hI.ddvd i _ hg).1 (hbit i _ hg hb)).2 (List.mem_map.2 ⟨_, ha, rfl⟩)
  · rintro ⟨m, rfl, hm, hcl⟩
    have hsel : ∀ (l : List ℤ) (m : ℕ), ∃ s : List ℤ, s.Sublist l ∧ s.prod = decP l m := by
      intro l
      induction l with
      | nil => intro m; exact ⟨[], List.Sublist.refl _, rfl⟩
      | cons p l ih =>
        intro m
        obtain ⟨s, hs, he⟩ := ih (m / 2)
        by_cases hb : m.testBit 0 = true
        · exact ⟨p :: s, hs.cons_cons p, by rw [List.prod_cons, he, decP, if_pos hb]⟩
        · exact ⟨s, hs.cons p, by rw [he, decP, if_neg hb, one_mul]⟩
    obtain ⟨s, hs, he⟩ := hsel ps (m / 2)
    obtain ⟨_, _, p3⟩ := prod_base (base_sublist h hs)
    have hsd : ∀ q ∈ s, div q D.d = true := by
      intro q hq
      have hqp := hs.subset hq
      have hd := (p3 q (h.prime q hqp) (h.pos q hqp)).2 hq
      rw [he, dvd_decP h (h.prime q hqp) (h.pos q hqp)] at hd
      obtain ⟨i, hi, hb⟩ := hd
      rw [← Nat.testBit_succ] at hb
      rw [div_iff, hI.ddvd i q hi]
      refine ⟨hm.2 i q hi hb, fun hx => ?_⟩
      obtain ⟨a, ha, hae⟩ := List.mem_map.1 hx
      have := hcl a ha
      rw [hae, hb] at this; cases this
    have hsf : s.Sublist (ps.filter fun q => div q D.d) := by
      have := hs.filter (fun q => div q D.d)
      rwa [List.filter_eq_self.2 hsd] at this
    by_cases hb : m.testBit 0 = true
    · have hp : D.positive = false := by
        rw [Bool.eq_false_iff]
        intro hx
        obtain ⟨a, ha, hae⟩ := List.mem_map.1 (hI.positive.1 hx)
        have := hcl a ha
        rw [hae, hb] at this; cases this
      refine ⟨-1, by simp [hp], s, hsf, ?_⟩
      rw [dec_eq, if_pos hb, he]; ring
    · refine ⟨1, by split_ifs <;> simp, s, hsf, ?_⟩
      rw [dec_eq, if_neg hb, he]; ring

/-! ## the theorems -/

/-- C43, `getsubgp`: make an `sqfdiv` with a base of distinct primes (fewer than 30 of them dividing
`dd`) and use any admissible integers.  No vector is overrun, and `getsubgp()` lists without
repetition exactly the squarefree integers that are, modulo squares, products of some of the
integers used (of `-1` too when `posd`). -/
theorem C43_subgp (dd : ℤ) (posd : Bool) (ps : List ℤ) (h : Base ps)
    (hn : (ps.filter fun q => decide (q ∣ dd)).length < 30) (us : List ℤ)
    (hu : ∀ u ∈ us, Adm ps dd u) :
    ∃ D0 D, SD.new dd posd ps = some D0 ∧ D0.run us = some D ∧ D.subgp.Nodup ∧
      ∀ x, x ∈ D.subgp ↔ Squarefree x ∧
        ∃ l : List ℤ, l.Sublist (used posd us) ∧ IsSquare (x * l.prod) := by
  have hn' : (ps.countP fun q => div q dd) < 30 := by
    rw [← List.countP_eq_length_filter] at hn
    rwa [List.countP_congr (q := fun q => decide (q ∣ dd)) (fun q _ => by rw [div_iff, decide_eq_true_eq])]
  obtain ⟨D0, pg0, e0, I0⟩ := inv_new posd h hn'
  obtain ⟨D, pg, ns, e1, I1, hr⟩ := inv_run h I0 us hu
  have hrel := rel_used h posd hr
  have hlt : ∀ x, Span (pg.map Prod.snd) x → x < 2 ^ (ps.length + 1) := fun x hx =>
    span_lt (fun g hg => by obtain ⟨a, ha, rfl⟩ := List.mem_map.1 hg; exact (I1.dm a ha).1) hx
  refine ⟨D0, D, e0, e1, ?_, ?_⟩
  · rw [I1.subgp]
    refine (spanL_nodup I1.tri).map_on ?_
    intro x hx y hy he
    exact dec_inj h (hlt x (mem_spanL.1 hx)) (hlt y (mem_spanL.1 hy)) he
  · intro x
    rw [I1.subgp, List.mem_map]
    constructor
    · rintro ⟨m, hm, rfl⟩
      rw [mem_spanL, I1.span] at hm
      exact ⟨squarefree_dec h m, (sq_span h hrel (squarefree_dec h m).ne_zero).1 ⟨m, hm, Sq.refl _⟩⟩
    · rintro ⟨hx, hl⟩
      obtain ⟨m, hm, hs⟩ := (sq_span h hrel hx.ne_zero).2 hl
      exact ⟨m, mem_spanL.2 ((I1.span m).2 hm), (sq_squarefree hx (squarefree_dec h m) hs).symm⟩

/-- C43, `getdivs`: after any such history, `getdivs()` lists without repetition squarefree
admissible integers, and every admissible integer is equal, modulo squares and products of the
integers used, to exactly one of them.  `factor` is the logarithm of the saving. -/
theorem C43_divs (dd : ℤ) (posd : Bool) (ps : List ℤ) (h : Base ps)
    (hn : (ps.filter fun q => decide (q ∣ dd)).length < 30) (us : List ℤ)
    (hu : ∀ u ∈ us, Adm ps dd u) :
    ∃ D0 D L, SD.new dd posd ps = some D0 ∧ D0.run us = some D ∧ D.getdivs = some L ∧ L.Nodup ∧
      (∀ c ∈ L, Squarefree c ∧ Adm ps dd c) ∧
      (∀ u, Adm ps dd u →
        ∃! c, c ∈ L ∧ ∃ l : List ℤ, l.Sublist (used posd us) ∧ IsSquare (u * c * l.prod)) ∧
      L.length * 2 ^ D.factor =
        (if posd then 1 else 2) * 2 ^ (ps.filter fun q => decide (q ∣ dd)).length := by
  have hcnt : (ps.countP fun q => div q dd) = (ps.filter fun q => decide (q ∣ dd)).length := by
    rw [← List.countP_eq_length_filter]
    exact List.countP_congr (fun q _ => by rw [div_iff, decide_eq_true_eq])
  obtain ⟨D0, pg0, e0, I0⟩ := inv_new (dd := dd) posd h (by rw [hcnt]; exact hn)
  obtain ⟨D, pg, ns, e1, I1, hr⟩ := inv_run h I0 us hu
  have hrel := rel_used h posd hr
  obtain ⟨L, hL⟩ : ∃ L, L = divLoop D.d ps (if D.positive then [1] else [1, -1]) := ⟨_, rfl⟩
  have hmem := mem_divs h I1
  rw [← hL] at hmem
  have hlen : L.length = if D.positive then 2 ^ D.np else 2 * 2 ^ D.np := by
    rw [hL, divLoop_length, ← I1.np]
    split_ifs <;> simp
  have hnp30 : ¬ 31 ≤ D.np := by
    have := I1.npn
    rw [hcnt] at this
    omega
  refine ⟨D0, D, L, e0, e1, ?_, ?_, ?_, ?_, ?_⟩
  · simp only [SD.getdivs]
    rw [if_neg hnp30, I1.pb, ← hL, ← hlen, if_neg (lt_irrefl _), Nat.sub_self]
    simp
  · rw [hL]
    refine divLoop_nodup h ?_ ?_
    · split_ifs <;> simp
    · intro x hx p hp hd
      have hux : IsUnit x := by
        rw [Int.isUnit_iff]
        split_ifs at hx <;> simp at hx <;> tauto
      exact (h.prime p hp).not_isUnit (isUnit_of_dvd_unit hd hux)
  · intro c hc
    obtain ⟨m, rfl, hm, _⟩ := (hmem c).1 hc
    refine ⟨squarefree_dec h m, _, 1, by ring, one_ne_zero, squarefree_dec h m, ?_⟩
    intro q hq hq0 hd
    obtain ⟨i, hi, hb⟩ := (dvd_dec h hq hq0 m).1 hd
    exact ⟨List.mem_of_getElem? hi, hm.2 i q hi hb⟩
  · intro u hu'
    obtain ⟨m, t, hm, ht, hu2⟩ := adm_mask h hu'
    have hu0 : u ≠ 0 := by
      rw [hu2]; exact mul_ne_zero (squarefree_dec h m).ne_zero (pow_ne_zero _ ht)
    have hsq : Sq u (decP (-1 :: ps) m) := by
      rw [hu2]; exact ⟨decP (-1 :: ps) m * t, by ring⟩
    have h0 : ∀ m, decP (-1 :: ps) m ≠ 0 := fun m => (squarefree_dec h m).ne_zero
    have hdm : Dm dd ps (reduceP pg m) := dm_reduceP I1.dm hm
    have hiff : ∀ c k, c = decP (-1 :: ps) k → Dm dd ps k →
        ((∃ l : List ℤ, l.Sublist (used posd us) ∧ IsSquare (u * c * l.prod)) ↔
          Span (ms0 posd ++ ns) (m ^^^ k)) := by
      rintro c k rfl hk
      have hsq2 : Sq (u * decP (-1 :: ps) k) (decP (-1 :: ps) (m ^^^ k)) :=
        (hsq.mul (Sq.refl _)).trans (sq_decP_xor _ _ _) (mul_ne_zero (h0 _) (h0 _))
      have := sq_span h hrel (x := u * decP (-1 :: ps) k) (mul_ne_zero hu0 (h0 _))
      unfold Sq at this
      rw [← this]
      constructor
      · rintro ⟨j, hj, hjs⟩
        have h3 : Sq (decP (-1 :: ps) (m ^^^ k)) (decP (-1 :: ps) j) :=
          hsq2.symm.trans hjs (mul_ne_zero hu0 (h0 _))
        have h4 := dec_inj h (dm_xor hm hk).1 (span_lt (fun g hg => ?_) hj)
          (sq_squarefree (squarefree_dec h _) (squarefree_dec h _) h3)
        · rw [h4]; exact hj
        · obtain ⟨v, hv⟩ := rel_mem hrel hg
          exact hv.2.1.1
      · intro hj
        exact ⟨_, hj, hsq2⟩
    refine ⟨decP (-1 :: ps) (reduceP pg m), ⟨?_, ?_⟩, ?_⟩
    · exact (hmem _).2 ⟨_, rfl, hdm, reduceP_clear I1.tri m⟩
    · rw [hiff _ _ rfl hdm, ← I1.span]
      exact span_reduceP pg m
    · rintro c ⟨hc, hl⟩
      obtain ⟨k, rfl, hk, hkc⟩ := (hmem c).1 hc
      rw [hiff _ _ rfl hk, ← I1.span] at hl
      have hs := span_xor hl (span_reduceP pg m)
      rw [xor_right_comm, ← Nat.xor_assoc, Nat.xor_self, Nat.zero_xor, Nat.xor_comm] at hs
      rw [coset_unique I1.tri hs hkc (reduceP_clear I1.tri m)]
  · have h1 := I1.npn
    have h2 := I1.factor
    rw [hlen, ← hcnt]
    have h3 : (if D.positive then 2 ^ D.np else 2 * 2 ^ D.np) * 2 ^ D.factor =
        2 ^ (D.np + (if D.positive then 0 else 1) + D.factor) := by
      split_ifs <;> ring
    have h4 : (if posd then 1 else 2) * 2 ^ (ps.countP fun q => div q dd) =
        2 ^ ((ps.countP fun q => div q dd) + (if posd then 0 else 1)) := by
      split_ifs <;> ring
    rw [h3, h4]
    congr 1
    revert h1 h2
    cases posd <;> cases D.positive <;> simp <;> omega

/-- the entries written by the loop of `getdivs` -/
theorem mem_divLoop (d : ℤ) : ∀ (l L : List ℤ) (x : ℤ), x ∈ divLoop d l L ↔
    ∃ s : List ℤ, s.Sublist (l.filter fun p => div p d) ∧ ∃ y ∈ L, x = s.prod * y
  | [], L, x => by simp [divLoop]
  | p :: l, L, x => by
    unfold divLoop
    split_ifs with hp
    · rw [mem_divLoop d l, List.filter_cons_of_pos (p := fun p => div p d) hp]
      constructor
      · rintro ⟨s, hs, y, hy, rfl⟩
        rcases List.mem_append.1 hy with hy | hy
        · exact ⟨s, hs.trans (List.sublist_cons_self _ _), y, hy, rfl⟩
        · obtain ⟨z, hz, rfl⟩ := List.mem_map.1 hy
          exact ⟨p :: s, hs.cons_cons p, z, hz, by rw [List.prod_cons]; ring⟩
      · rintro ⟨s, hs, y, hy, rfl⟩
        rcases List.sublist_cons_iff.1 hs with hs | ⟨r, rfl, hr⟩
        · exact ⟨s, hs, y, by simp [hy], rfl⟩
        · exact ⟨r, hr, p * y, List.mem_append_right _ (List.mem_map.2 ⟨y, hy, rfl⟩), by rw [List.prod_cons]; ring⟩
    · rw [mem_divLoop d l, List.filter_cons_of_neg (p := fun p => div p d) hp]

/-- C43, `getsupp`: after any such history, the divisors of `getdivs()` are the products of subsets of
`getsupp()`, and with both signs those of `getsupp(1)` -/
theorem C43_supp (dd : ℤ) (posd : Bool) (ps : List ℤ) (h : Base ps)
    (hn : (ps.filter fun q => decide (q ∣ dd)).length < 30) (us : List ℤ)
    (hu : ∀ u ∈ us, Adm ps dd u) :
    ∃ D0 D L, SD.new dd posd ps = some D0 ∧ D0.run us = some D ∧ D.getdivs = some L ∧
      (∀ x, x ∈ L ↔ ∃ s : List ℤ, s.Sublist (D.getsupp false) ∧ x = s.prod) ∧
      ∀ x, (x ∈ L ∨ -x ∈ L) ↔ ∃ s : List ℤ, s.Sublist (D.getsupp true) ∧ x = s.prod := by
  obtain ⟨D0, D, L, e0, e1, e2, -, hsq, -⟩ := C43_divs dd posd ps h hn us hu
  have hL : ∀ x, x ∈ L ↔ x ∈ divLoop D.d D.pb (if D.positive then [1] else [1, -1]) := by
    intro x
    unfold SD.getdivs at e2
    simp only at e2
    generalize divLoop D.d D.pb (if D.positive = true then [1] else [1, -1]) = M at e2 ⊢
    generalize (if D.positive = true then 2 ^ D.np else 2 * 2 ^ D.np) = nd at e2
    split_ifs at e2
    simp only [Option.some.injEq] at e2
    subst e2
    · constructor
      · intro hx
        rcases List.mem_append.1 hx with hx' | hx'
        · exact hx'
        · have := List.eq_of_mem_replicate hx'
          exact absurd this (hsq x hx).1.ne_zero
      · intro hx
        exact List.mem_append_left _ hx
  have hneg : ∀ (l : List ℤ) (x : ℤ), (∃ s : List ℤ, s.Sublist (-1 :: l) ∧ x = s.prod) ↔
      ∃ s : List ℤ, s.Sublist l ∧ (x = s.prod ∨ x = -s.prod) := by
    intro l x
    constructor
    · rintro ⟨s, hs, rfl⟩
      rcases List.sublist_cons_iff.1 hs with hs | ⟨r, rfl, hr⟩
      · exact ⟨s, hs, Or.inl rfl⟩
      · exact ⟨r, hr, Or.inr (by rw [List.prod_cons]; ring)⟩
    · rintro ⟨s, hs, rfl | rfl⟩
      · exact ⟨s, hs.trans (List.sublist_cons_self _ _), rfl⟩
      · exact ⟨-1 :: s, hs.cons_cons _, by rw [List.prod_cons]; ring⟩
  refine ⟨D0, D, L, e0, e1, e2, fun x => ?_, fun x => ?_⟩
  · rw [hL, mem_divLoop]
    unfold SD.getsupp
    by_cases hp : D.positive = true
    · simp [hp]
    · simp only [hp, Bool.not_false, Bool.or_false, if_true, Bool.false_eq_true, if_false]
      rw [List.singleton_append, hneg]
      refine exists_congr fun s => and_congr_right fun _ => ?_
      simp
  · rw [hL, hL, mem_divLoop, mem_divLoop]
    unfold SD.getsupp
    simp only [Bool.or_true, if_true]
    rw [List.singleton_append, hneg, ← exists_or]
    refine exists_congr fun s => ?_
    rw [← and_or_left]
    refine and_congr_right fun _ => ?_
    by_cases hp : D.positive = true
    · simp only [hp, if_true, List.mem_singleton, exists_eq_left, mul_one]
      rw [neg_eq_iff_eq_neg]
    · simp only [hp, Bool.false_eq_true, if_false]
      simp only [List.mem_cons, List.not_mem_nil, or_false, exists_eq_or_imp, exists_eq_left]
      omega

/-! concrete cases -/

example : Base [2, 3, 5, 7] := by
  refine ⟨?_, by decide, by decide⟩
  intro p hp
  fin_cases hp <;> exact Int.prime_iff_natAbs_prime.2 (by norm_num)

example : Adm [2, 3, 5, 7] 210 (-24) :=
  ⟨-6, 2, by norm_num, by norm_num, by
    rw [← Int.squarefree_natAbs]; show Squarefree 6; decide +kernel, by
    intro q hq hq0 hd
    have h1 : q ∣ 2 * 3 := by simpa using hd
    rcases hq.dvd_mul.1 h1 with h | h
    · have := prime_eq hq Int.prime_two hq0 (by norm_num) h
      subst this; exact ⟨by simp, by norm_num⟩
    · have := prime_eq hq Int.prime_three hq0 (by norm_num) h
      subst this; exact ⟨by simp, by norm_num⟩⟩

example : ((SD.new 210 false [2, 3, 5, 7]).bind fun D => (D.run [-24, 10, -15]).bind fun D =>
    D.getdivs.map fun L => (D.subgp, L, D.factor)) =
    some ([1, -6, 10, -15], [1, -1, 2, -2, 7, -7, 14, -14], 2) := by decide +kernel

example : ((SD.new 210 false [2, 3, 5, 7]).bind fun D => (D.run [-24, 10, -15]).map fun D =>
    D.getsupp false) = some [-1, 2, 7] := by decide +kernel

end Eclib.Sqf
