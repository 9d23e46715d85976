import Verif.Bits.Tri
import Verif.Bits.Model

/-!
# C42: `bitspace`

Everything is proved for spaces of dimension at most 31 (`_partial`): for larger ones the code
shifts an `int` too far, `C42_wide`.
-/

namespace Eclib.Bits

/-- what the class maintains after the vectors `vs` were given to it -/
structure OK (B : BS) (vs : List ℕ) : Prop where
  small : B.maxdim ≤ 31
  len : B.pivs.length = B.gens.length
  tri : Tri (B.pivs.zip B.gens)
  lt : ∀ g ∈ B.gens, g < 2 ^ B.maxdim
  piv : ∀ p ∈ B.pivs, p < B.maxdim
  mask : ∀ i, B.bitmask.testBit i = true ↔ i ∈ B.pivs
  span : ∀ x, Span B.gens x ↔ Span vs x

theorem OK.snd {B : BS} {vs : List ℕ} (h : OK B vs) : (B.pivs.zip B.gens).map Prod.snd = B.gens :=
  List.map_snd_zip (le_of_eq h.len.symm)

theorem OK.fst {B : BS} {vs : List ℕ} (h : OK B vs) : (B.pivs.zip B.gens).map Prod.fst = B.pivs :=
  List.map_fst_zip (le_of_eq h.len)

theorem elim_eq {l : List (ℕ × ℕ)} (h : ∀ a ∈ l, a.1 < 31) (v : ℕ) :
    elim l v = some (reduceP l v) := by
  induction l generalizing v with
  | nil => rfl
  | cons a l ih =>
    obtain ⟨p, g⟩ := a
    have hp : p < 31 := h (p, g) List.mem_cons_self
    have ih' := ih fun a ha => h a (List.mem_cons_of_mem _ ha)
    rw [elim, testbit, if_pos hp, reduceP, List.foldl_cons]
    by_cases hb : v.testBit p = true
    · simp only [hb]; rw [ih']; rfl
    · have hb : v.testBit p = false := by simpa using hb
      simp only [hb]; rw [ih']; rfl

theorem topBit_spec {n : ℕ} (hn : n ≤ 31) (v : ℕ) (hv : v < 2 ^ n) :
    (v = 0 ∧ topBit n v = some (-1)) ∨
    ∃ j : ℕ, j < n ∧ v.testBit j = true ∧ v < 2 ^ (j + 1) ∧ topBit n v = some (j : ℤ) := by
  induction n with
  | zero => left; refine ⟨by simpa using hv, rfl⟩
  | succ n ih =>
    rw [topBit, testbit, if_pos (by omega)]
    by_cases hb : v.testBit n = true
    · right; refine ⟨n, by omega, hb, hv, ?_⟩; simp only [hb]
    · have hb : v.testBit n = false := by simpa using hb
      have hv' : v < 2 ^ n := by
        by_contra hc
        have := Nat.testBit_of_two_pow_le_and_two_pow_add_one_gt (by omega : v ≥ 2 ^ n) hv
        rw [this] at hb; cases hb
      simp only [hb]
      rcases ih (by omega) hv' with ⟨h0, h1⟩ | ⟨j, h1, h2, h3⟩
      · exact Or.inl ⟨h0, h1⟩
      · exact Or.inr ⟨j, by omega, h2, h3⟩

theorem ok_new (d : ℤ) (hd : d ≤ 31) : OK (BS.new d) [] := by
  refine ⟨?_, rfl, ⟨?_, ?_⟩, ?_, ?_, ?_, ?_⟩ <;> simp [BS.new]
  split_ifs <;> omega

theorem reduce_eq {B : BS} {vs : List ℕ} (h : OK B vs) {v : ℕ} (hv : v < 2 ^ B.maxdim) :
    (Span vs v ∧ reduceP (B.pivs.zip B.gens) v = 0 ∧ B.reduce v 0 = some (0, -1)) ∨
    (¬ Span vs v ∧ ∃ j : ℕ, j < B.maxdim ∧
      (reduceP (B.pivs.zip B.gens) v).testBit j = true ∧
      reduceP (B.pivs.zip B.gens) v < 2 ^ (j + 1) ∧
      B.reduce v 0 = some (reduceP (B.pivs.zip B.gens) v, (j : ℤ))) := by
  have he : elim (B.pivs.zip B.gens) v = some (reduceP (B.pivs.zip B.gens) v) := by
    apply elim_eq
    intro a ha
    have := h.piv a.1 (List.of_mem_zip ha).1
    have := h.small
    omega
  have hl : reduceP (B.pivs.zip B.gens) v < 2 ^ B.maxdim :=
    reduceP_lt (fun a ha => h.lt a.2 (List.of_mem_zip ha).2) hv
  have hz := reduceP_eq_zero h.tri (v := v)
  rw [h.snd, h.span] at hz
  rw [BS.reduce, List.drop_zero, he]
  rcases topBit_spec h.small _ hl with ⟨h0, h1⟩ | ⟨j, h1, h2, h3, h4⟩
  · left
    refine ⟨hz.1 h0, h0, ?_⟩
    simp only [h1]; rw [h0]
  · right
    refine ⟨fun hs => ?_, j, h1, h2, h3, ?_⟩
    · rw [hz.2 hs] at h2; simp at h2
    · simp only [h4]

theorem ok_snoc_same {B : BS} {vs : List ℕ} (h : OK B vs) {v : ℕ} (hs : Span vs v) :
    OK B (vs ++ [v]) := by
  refine { h with span := fun x => ?_ }
  rw [h.span, span_concat]
  constructor
  · exact Or.inl
  · rintro (hx | hx)
    · exact hx
    · have := span_xor hx hs
      rwa [xor_xor_self] at this

/-- the list of pivots cannot be longer than the dimension allows -/
theorem piv_length {B : BS} {vs : List ℕ} (h : OK B vs) : B.gens.length ≤ B.maxdim := by
  have hn := tri_nodup h.tri
  rw [h.fst] at hn
  have hs : B.pivs ⊆ List.range B.maxdim := fun p hp => List.mem_range.2 (h.piv p hp)
  have := (List.subperm_of_subset hn hs).length_le
  rw [List.length_range] at this
  rw [← h.len]; exact this

/-- `augment(v,piv)` with a reduced vector and any of its set bits as the pivot -/
theorem ok_augmentAt {B : BS} {vs : List ℕ} (h : OK B vs) {v w p : ℕ} (hw : w < 2 ^ B.maxdim)
    (hp : p < B.maxdim) (hb : w.testBit p = true) (hc : ∀ q ∈ B.pivs, w.testBit q = false)
    (hvw : Span vs (v ^^^ w)) :
    ∃ B', B.augmentAt w p = some B' ∧ OK B' (vs ++ [v]) ∧ B'.maxdim = B.maxdim ∧
      B'.gens = B.gens ++ [w] := by
  have hc' : ∀ a ∈ B.pivs.zip B.gens, w.testBit a.1 = false :=
    fun a ha => hc a.1 (List.of_mem_zip ha).1
  have ht := tri_concat h.tri hb hc'
  have hz : (B.pivs ++ [p]).zip (B.gens ++ [w]) = B.pivs.zip B.gens ++ [(p, w)] :=
    List.zip_append h.len
  have hnew : p ∉ B.pivs := fun hp' => by rw [hc p hp'] at hb; cases hb
  have hdim : B.gens.length < B.maxdim := by
    have hn : (B.pivs ++ [p]).Nodup := by
      have := tri_nodup ht
      rwa [List.map_append, h.fst] at this
    have hs : B.pivs ++ [p] ⊆ List.range B.maxdim := by
      intro q hq
      rw [List.mem_range]
      rcases List.mem_append.1 hq with hq | hq
      · exact h.piv q hq
      · rw [List.mem_singleton] at hq; omega
    have := (List.subperm_of_subset hn hs).length_le
    rw [List.length_range, List.length_append, List.length_singleton, h.len] at this
    omega
  have hsm := h.small
  refine ⟨_, if_pos ⟨hdim, by omega⟩, ?_, rfl, rfl⟩
  refine { small := hsm, len := ?_, tri := ?_, lt := ?_, piv := ?_, mask := ?_, span := ?_ }
  · simp [h.len]
  · show Tri ((B.pivs ++ [p]).zip (B.gens ++ [w]))
    rw [hz]; exact ht
  · intro g hg
    rcases List.mem_append.1 hg with hg | hg
    · exact h.lt g hg
    · rw [List.mem_singleton] at hg; subst hg; exact hw
  · intro q hq
    rcases List.mem_append.1 hq with hq | hq
    · exact h.piv q hq
    · rw [List.mem_singleton] at hq; subst hq; exact hp
  · intro i
    show (B.bitmask ||| 2 ^ p).testBit i = true ↔ i ∈ B.pivs ++ [p]
    rw [Nat.testBit_or, Nat.testBit_two_pow, Bool.or_eq_true, h.mask, List.mem_append,
      List.mem_singleton, decide_eq_true_eq, eq_comm (a := p)]
  · intro x
    show Span (B.gens ++ [w]) x ↔ _
    have h1 : Span (B.gens ++ [w]) x ↔ Span (vs ++ [w]) x := by
      rw [span_concat, span_concat, h.span, h.span]
    rw [h1, span_concat_congr hvw]

theorem ok_augment {B : BS} {vs : List ℕ} (h : OK B vs) {v : ℕ} (hv : v < 2 ^ B.maxdim) :
    (Span vs v ∧ B.augment v = some (B, 0) ∧ OK B (vs ++ [v])) ∨
    (¬ Span vs v ∧ ∃ B', B.augment v = some (B', 1) ∧ OK B' (vs ++ [v]) ∧
      B'.maxdim = B.maxdim ∧ B'.gens.length = B.gens.length + 1) := by
  rcases reduce_eq h hv with ⟨hs, _, he⟩ | ⟨hs, j, hj, hb, _, he⟩
  · left
    refine ⟨hs, ?_, ok_snoc_same h hs⟩
    rw [BS.augment, he]; rfl
  · right
    refine ⟨hs, ?_⟩
    obtain ⟨B', h1, h2, h3, h4⟩ := ok_augmentAt h (v := v) (w := reduceP (B.pivs.zip B.gens) v)
      (reduceP_lt (fun a ha => h.lt a.2 (List.of_mem_zip ha).2) hv) hj hb
      (by
        intro q hq
        rw [← h.fst] at hq
        obtain ⟨a, ha, rfl⟩ := List.mem_map.1 hq
        exact reduceP_clear h.tri v a ha)
      (by have := span_reduceP (B.pivs.zip B.gens) v; rwa [h.snd, h.span] at this)
    refine ⟨B', ?_, h2, h3, by rw [h4, List.length_append, List.length_singleton]⟩
    rw [BS.augment, he]
    simp only [Int.toNat_natCast, h1]
    rw [if_neg (by omega)]

theorem ok_run {B : BS} {us : List ℕ} (h : OK B us) (vs : List ℕ)
    (hv : ∀ v ∈ vs, v < 2 ^ B.maxdim) :
    ∃ B' rs, B.run vs = some (B', rs) ∧ OK B' (us ++ vs) ∧ B'.maxdim = B.maxdim ∧
      rs.length = vs.length ∧
      (B'.gens.length : ℤ) = B.gens.length + rs.sum ∧
      ∀ i (hi : i < vs.length),
        (rs[i]? = some 0 ∧ Span (us ++ vs.take i) vs[i]) ∨
        (rs[i]? = some 1 ∧ ¬ Span (us ++ vs.take i) vs[i]) := by
  induction vs generalizing B us with
  | nil => exact ⟨B, [], rfl, by simpa using h, rfl, rfl, by simp, fun i hi => absurd hi (by simp)⟩
  | cons v vs ih =>
    have hv0 := hv v List.mem_cons_self
    have hvs := fun w hw => hv w (List.mem_cons_of_mem _ hw)
    rcases ok_augment h hv0 with ⟨hs, he, hO⟩ | ⟨hs, B1, he, hO, hm, hl⟩
    · obtain ⟨B', rs, h1, h2, h3, h4, h5, h6⟩ := ih hO hvs
      refine ⟨B', 0 :: rs, ?_, by simpa using h2, h3, by simp [h4], by simpa using h5, ?_⟩
      · rw [BS.run, he]; simp only [h1]
      · rintro (_ | i) hi
        · left; simpa using hs
        · have := h6 i (by simpa using hi)
          simpa using this
    · obtain ⟨B', rs, h1, h2, h3, h4, h5, h6⟩ := ih hO (fun w hw => by rw [hm]; exact hvs w hw)
      refine ⟨B', 1 :: rs, ?_, by simpa using h2, h3.trans hm, by simp [h4], ?_, ?_⟩
      · rw [BS.run, he]; simp only [h1]
      · rw [h5, hl, List.sum_cons]; push_cast; ring
      · rintro (_ | i) hi
        · right; simpa using hs
        · have := h6 i (by simpa using hi)
          simpa using this

/-- C42, histories of `augment`: for a space made with dimension `d ≤ 31` and any vectors of at
most `d` bits, no access is out of bounds, the stored generators are independent, they span what
the given vectors span, each call answers 1 exactly when its vector is not in the span of the
previous ones, and `dim` is the number of such calls, at most `d`.  Missing: `31 < d ≤ 64`, where
the code is wrong (`C42_wide`). -/
theorem C42_history_partial (d : ℤ) (hd0 : 0 ≤ d) (hd : d ≤ 31) (vs : List ℕ)
    (hv : ∀ v ∈ vs, v < 2 ^ d.toNat) :
    ∃ B rs, (BS.new d).run vs = some (B, rs) ∧ Indep B.gens ∧
      (∀ x, Span B.gens x ↔ Span vs x) ∧ (B.dim : ℤ) ≤ d ∧ (B.dim : ℤ) = rs.sum ∧
      rs.length = vs.length ∧
      ∀ i (hi : i < vs.length),
        (rs[i]? = some 0 ∧ Span (vs.take i) vs[i]) ∨
        (rs[i]? = some 1 ∧ ¬ Span (vs.take i) vs[i]) := by
  have hm : (BS.new d).maxdim = d.toNat := by
    simp only [BS.new]
    rw [if_neg (by omega), if_neg (by omega)]
  obtain ⟨B, rs, h1, h2, h3, h4, h5, h6⟩ := ok_run (ok_new d hd) vs (by rw [hm]; exact hv)
  refine ⟨B, rs, h1, ?_, h2.span, ?_, ?_, h4, h6⟩
  · have := tri_indep h2.tri
    rwa [h2.snd] at this
  · have := piv_length h2
    rw [h3, hm] at this
    rw [BS.dim]; omega
  · rw [BS.dim, h5]; simp [BS.new]

/-- C42, `reduce` and `augment` after any history: `reduce(v)` is defined, changes `v` by an element
of the span, leaves 0 and returns -1 exactly when `v` is in the span, and otherwise returns the
highest set bit of the reduced vector; `augment(v)` leaves the space alone and returns 0 when `v` is
in the span and otherwise increases `dim` by exactly one. -/
theorem C42_reduce_partial (d : ℤ) (hd0 : 0 ≤ d) (hd : d ≤ 31) (vs : List ℕ)
    (hv : ∀ v ∈ vs, v < 2 ^ d.toNat) (v : ℕ) (hv1 : v < 2 ^ d.toNat) {B : BS} {rs : List ℤ}
    (hB : (BS.new d).run vs = some (B, rs)) :
    (∃ w j, B.reduce v 0 = some (w, j) ∧ Span vs (v ^^^ w) ∧
      (w = 0 ↔ Span vs v) ∧ (j = -1 ↔ Span vs v) ∧
      (j ≠ -1 → 0 ≤ j ∧ j < d ∧ w.testBit j.toNat = true ∧ w < 2 ^ (j.toNat + 1))) ∧
    (Span vs v → B.augment v = some (B, 0)) ∧
    (¬ Span vs v → ∃ B', B.augment v = some (B', 1) ∧ B'.dim = B.dim + 1) := by
  have hm : (BS.new d).maxdim = d.toNat := by
    simp only [BS.new]
    rw [if_neg (by omega), if_neg (by omega)]
  obtain ⟨B0, rs0, h1, h2, h3, h4, h5, h6⟩ := ok_run (ok_new d hd) vs (by rw [hm]; exact hv)
  rw [hB] at h1
  simp only [Option.some.injEq, Prod.mk.injEq] at h1
  obtain ⟨rfl, rfl⟩ := h1
  rw [List.nil_append] at h2
  have hv2 : v < 2 ^ B.maxdim := by rw [h3, hm]; exact hv1
  refine ⟨?_, ?_, ?_⟩
  · rcases reduce_eq h2 hv2 with ⟨hs, _, he⟩ | ⟨hs, j, hj, hb, hw, he⟩
    · refine ⟨0, -1, he, by rwa [Nat.xor_zero], by simp [hs], by simp [hs], fun h => absurd rfl h⟩
    · refine ⟨_, (j : ℤ), he, ?_, ?_, ?_, fun _ => ⟨by omega, ?_, by simpa using hb, by simpa using hw⟩⟩
      · have := span_reduceP (B.pivs.zip B.gens) v; rwa [h2.snd, h2.span] at this
      · refine iff_of_false (fun h => ?_) hs
        rw [h] at hb; simp at hb
      · exact iff_of_false (by omega) hs
      · rw [h3, hm] at hj; omega
  · intro hs
    rcases ok_augment h2 hv2 with ⟨_, he, _⟩ | ⟨hn, _⟩
    · exact he
    · exact absurd hs hn
  · intro hs
    rcases ok_augment h2 hv2 with ⟨hn, _⟩ | ⟨_, B', he, _, _, hl⟩
    · exact absurd hn hs
    · exact ⟨B', he, hl⟩

/-- C42, `mask` after any history: every vector has exactly one vector in its coset modulo the span
on which `mask` is 0, and `reduce` finds it; so the vectors passed by the loops of `rank2` that skip
those with `mask` nonzero are exactly one for each coset. -/
theorem C42_mask_partial (d : ℤ) (hd0 : 0 ≤ d) (hd : d ≤ 31) (vs : List ℕ)
    (hv : ∀ v ∈ vs, v < 2 ^ d.toNat) {B : BS} {rs : List ℤ}
    (hB : (BS.new d).run vs = some (B, rs)) (v : ℕ) (hv1 : v < 2 ^ d.toNat) :
    ∃ w j, B.reduce v 0 = some (w, j) ∧ w < 2 ^ d.toNat ∧ Span vs (v ^^^ w) ∧ B.mask w = false ∧
      ∀ x, Span vs (v ^^^ x) → B.mask x = false → x = w := by
  have hm : (BS.new d).maxdim = d.toNat := by
    simp only [BS.new]
    rw [if_neg (by omega), if_neg (by omega)]
  obtain ⟨B0, rs0, h1, h2, h3, h4, h5, h6⟩ := ok_run (ok_new d hd) vs (by rw [hm]; exact hv)
  rw [hB] at h1
  simp only [Option.some.injEq, Prod.mk.injEq] at h1
  obtain ⟨rfl, rfl⟩ := h1
  rw [List.nil_append] at h2
  have hv2 : v < 2 ^ B.maxdim := by rw [h3, hm]; exact hv1
  have hmask : ∀ x, B.mask x = false ↔ ∀ a ∈ B.pivs.zip B.gens, x.testBit a.1 = false := by
    intro x
    have h1 : B.mask x = false ↔ x &&& B.bitmask = 0 := by simp [BS.mask]
    rw [h1]
    constructor
    · intro h0 a ha
      have := congrArg (fun n => n.testBit a.1) h0
      simp only [Nat.testBit_and, (h2.mask a.1).2 (List.of_mem_zip ha).1] at this
      simpa using this
    · intro h0
      apply Nat.eq_of_testBit_eq
      intro i
      rw [Nat.testBit_and, Nat.zero_testBit]
      by_cases hi : B.bitmask.testBit i = true
      · have hp := (h2.mask i).1 hi
        rw [← h2.fst] at hp
        obtain ⟨a, ha, rfl⟩ := List.mem_map.1 hp
        rw [h0 a ha]; rfl
      · have : B.bitmask.testBit i = false := by simpa using hi
        rw [this, Bool.and_false]
  have hsp : Span vs (v ^^^ reduceP (B.pivs.zip B.gens) v) := by
    have := span_reduceP (B.pivs.zip B.gens) v; rwa [h2.snd, h2.span] at this
  have hcl := reduceP_clear h2.tri v
  have hre : ∃ j, B.reduce v 0 = some (reduceP (B.pivs.zip B.gens) v, j) := by
    rcases reduce_eq h2 hv2 with ⟨hs, h0, he⟩ | ⟨hs, j, hj, hb, hw, he⟩
    · exact ⟨-1, by rw [he, h0]⟩
    · exact ⟨j, he⟩
  obtain ⟨j, hj⟩ := hre
  refine ⟨_, j, hj, ?_, hsp, (hmask _).2 hcl, ?_⟩
  · have := reduceP_lt (pg := B.pivs.zip B.gens) (n := B.maxdim)
      (fun a ha => h2.lt a.2 (List.of_mem_zip ha).2) hv2
    rwa [h3, hm] at this
  · intro x hx hx0
    have hd : Span vs (x ^^^ reduceP (B.pivs.zip B.gens) v) := by
      have := span_xor hx hsp
      rwa [xor_right_comm, ← Nat.xor_assoc, Nat.xor_self, Nat.zero_xor, Nat.xor_comm] at this
    refine coset_unique h2.tri ?_ ((hmask x).1 hx0) hcl
    rw [h2.snd, h2.span]; exact hd

/-- C42, the optional argument of `reduce`: when `v` is already reduced with respect to the first
`start` generators, `reduce(v,start)` is `reduce(v)` -/
theorem C42_reduce_start (B : BS) (v start : ℕ) (hp : ∀ p ∈ B.pivs, p < 31)
    (h : ∀ p ∈ B.pivs.take start, v.testBit p = false) :
    B.reduce v start = B.reduce v 0 := by
  have key : ∀ (l : List (ℕ × ℕ)) (s : ℕ), (∀ a ∈ l, a.1 < 31) →
      (∀ a ∈ l.take s, v.testBit a.1 = false) → elim (l.drop s) v = elim l v := by
    intro l
    induction l with
    | nil => intro s _ _; rw [List.drop_nil]
    | cons a l ih =>
      intro s h1 h2
      rcases s with _ | s
      · rfl
      · obtain ⟨p, g⟩ := a
        rw [List.drop_succ_cons, ih s (fun a ha => h1 a (List.mem_cons_of_mem _ ha))
          (fun a ha => h2 a (by rw [List.take_succ_cons]; exact List.mem_cons_of_mem _ ha))]
        have h3 : v.testBit p = false := h2 (p, g) (by rw [List.take_succ_cons]; exact List.mem_cons_self)
        have h4 : p < 31 := h1 (p, g) List.mem_cons_self
        rw [elim, testbit, if_pos h4, h3]
  rw [BS.reduce, BS.reduce, key, List.drop_zero]
  · intro a ha; exact hp a.1 (List.of_mem_zip ha).1
  · intro a ha
    rw [List.zip, List.take_zipWith] at ha
    exact h a.1 (List.of_mem_zip (l₂ := B.gens.take start) ha).1

/-- C42, the code as it stands above dimension 31: a space may be made with any dimension up to 64,
but every call of `reduce`, and so of `augment`, shifts the `int` 1 by 31 or more places -/
theorem C42_wide (d : ℤ) (hd : 32 ≤ d) (v : ℕ) :
    31 < (BS.new d).maxdim ∧ (BS.new d).reduce v 0 = none ∧ (BS.new d).augment v = none := by
  have hm : ∃ n, (BS.new d).maxdim = n + 32 := by
    refine ⟨(BS.new d).maxdim - 32, ?_⟩
    have : 32 ≤ (BS.new d).maxdim := by
      simp only [BS.new]; split_ifs <;> omega
    omega
  obtain ⟨n, hn⟩ := hm
  have hr : (BS.new d).reduce v 0 = none := by
    have hg : (BS.new d).pivs.zip (BS.new d).gens = [] := rfl
    rw [BS.reduce, hg, List.drop_nil, elim]
    simp only
    rw [hn, topBit, testbit, if_neg (by omega)]
  exact ⟨by omega, hr, by rw [BS.augment, hr]⟩

/-! concrete cases -/

example : (BS.new 4).run [5, 6, 3, 8] =
    some (⟨4, [2, 1, 3], [5, 3, 8], 14⟩, [1, 1, 0, 1]) := by decide +kernel
example : (⟨4, [2, 1, 3], [5, 3, 8], 14⟩ : BS).reduce 14 0 = some (0, -1) := by decide +kernel
example : (⟨4, [2, 1, 3], [5, 3, 8], 14⟩ : BS).reduce 7 0 = some (1, 0) := by decide +kernel

end Eclib.Bits
