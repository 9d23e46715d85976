import Verif.Symb.Specials
import Mathlib.Tactic.NormNum.Prime

/-!
# The M-symbols of level `N` and their indices (C40, C59)

C40 is stated for all levels; it holds for `N ≥ 2` (theorems `C40_…_partial`), while at `N = 1` the
code reads outside a vector (`C40_level_one`).
-/

namespace Eclib.Symb

open SymbSpec

variable {N : ℤ} {S : Symbdata}

theorem code_unit (hN : 1 < N) {M : Moddata} (hM : ModOK N M) {d : ℤ} (hd : Int.gcd d N = 1) :
    ∃ v, M.code d = some v ∧ 0 < v ∧ N ∣ v * d - 1 := by
  have hN0 : 0 < N := by omega
  obtain ⟨h1, h2⟩ := emod_lt_toNat hN0 d
  obtain ⟨v, v1, v2, v3, v4⟩ := hM.tab.unit _ h1 (by rw [h2, gcd_emod]; exact hd)
  rw [h2] at v4
  obtain ⟨x, hx⟩ := v4
  obtain ⟨y, hy⟩ := dvd_emod_sub d N
  refine ⟨v, ?_, ?_, ⟨x - v * y, by linear_combination hx - v * hy⟩⟩
  · rw [Moddata.code, hM.hN, reduce_eq hN0]; exact v1
  · rcases v2.lt_or_eq with h | h
    · exact h
    · subst h
      have : N ∣ 1 := ⟨-x, by linear_combination -hx⟩
      have := Int.le_of_dvd one_pos this
      omega

theorem code_non (hN : 1 < N) {M : Moddata} (hM : ModOK N M) {d : ℤ} (hd : Int.gcd d N ≠ 1) :
    ∃ k : ℕ, M.code d = some (-(k : ℤ)) ∧ M.noninv[k]? = some (d % N) ∧
      M.noninvd[k]? = some (if (Int.gcd d N : ℤ) < N then (M.dlist.idxOf (Int.gcd d N : ℤ) : ℤ)
        else -1) := by
  have hN0 : 0 < N := by omega
  obtain ⟨h1, h2⟩ := emod_lt_toNat hN0 d
  obtain ⟨k, k1, k2, k3⟩ := hM.tab.non _ h1 (by rw [h2, gcd_emod]; exact hd)
  rw [h2] at k2
  rw [h2, gcd_emod] at k3
  exact ⟨k, by rw [Moddata.code, hM.hN, reduce_eq hN0]; exact k1, k2, k3⟩

theorem gcd_mul_unit {v c d : ℤ} (hv : N ∣ v * c - 1) : Int.gcd (v * d) N = Int.gcd d N := by
  obtain ⟨x, hx⟩ := hv
  exact gcd_eq_of_dvd_sub (u := v) ⟨c, -x, by linear_combination hx⟩ (by simp)

theorem emod_eq_of_dvd {a b : ℤ} (h : N ∣ b - a) : a % N = b % N :=
  Int.ModEq.eq ((Int.modEq_iff_dvd).2 h)

/-- first kind of symbol -/
theorem index2_one (hN : 1 < N) (hS : SymbOK N S) (c : ℤ) {d : ℤ} (hd : Int.gcd d N = 1) :
    ∃ v, N ∣ v * d - 1 ∧ S.index2 c d = some ((c * v) % N) := by
  obtain ⟨v, v1, v2, v3⟩ := code_unit hN hS.mod hd
  refine ⟨v, v3, ?_⟩
  rw [Symbdata.index2, v1]
  simp only
  rw [if_pos v2, hS.mod.hN, dvd_reduce_xmodmul (by omega)]

/-- second kind of symbol -/
theorem index2_two (hN : 1 < N) (hS : SymbOK N S) {c d : ℤ} (hd : Int.gcd d N ≠ 1)
    (hc : Int.gcd c N = 1) :
    ∃ (v : ℤ) (k : ℕ), N ∣ v * c - 1 ∧ S.noninv[k]? = some ((v * d) % N) ∧
      S.index2 c d = some (N + k) := by
  obtain ⟨j, j1, -, -⟩ := code_non hN hS.mod hd
  obtain ⟨v, v1, v2, v3⟩ := code_unit hN hS.mod hc
  have hx := dvd_xmodmul v d N
  have hg : Int.gcd (xmodmul v d N) N ≠ 1 := by
    rw [gcd_eq_of_dvd_sub (u := 1) isCoprime_one_left (c := v * d) (by simpa using hx),
      gcd_mul_unit v3]
    exact hd
  obtain ⟨k, k1, k2, -⟩ := code_non hN hS.mod hg
  refine ⟨v, k, v3, ?_, ?_⟩
  · rw [k2, ← emod_eq_of_dvd hx]
  · rw [Symbdata.index2, j1]
    simp only
    rw [if_neg (by omega), v1]
    simp only
    rw [if_pos v2, hS.mod.hN, k1, Option.map_some, sub_neg_eq_add]

theorem not_dvd_of_special {c d : ℤ} (h : Special N c d) : ¬ N ∣ c := by
  intro hc
  obtain ⟨⟨a, b, k, e⟩, -, hd⟩ := h
  obtain ⟨x, rfl⟩ := hc
  exact hd (Int.isCoprime_iff_gcd_eq_one.1 ⟨b, a * x + k, by linear_combination e⟩)

/-- third kind of symbol -/
theorem index2_three (hN : 1 < N) (hS : SymbOK N S) {c d : ℤ} (h : Special N c d) :
    ∃ k, Key N c d k ∧ k ∈ S.specials.list.map (skey N) ∧
      S.index2 c d = some (S.nsymb1 + ((S.specials.list.map (skey N)).idxOf k : ℤ)) := by
  have hN0 : 0 < N := by omega
  have hnd := not_dvd_of_special h
  obtain ⟨j, j1, -, -⟩ := code_non hN hS.mod h.2.2
  obtain ⟨i, i1, -, i3⟩ := code_non hN hS.mod h.2.1
  obtain ⟨k, k1, k2⟩ := lookup_spec hN0 hS.mod hS.sym d hnd
  have hmem : k ∈ S.specials.list.map (skey N) := by
    obtain ⟨s, s1, s2⟩ := hS.complete c d h
    have := key_unique hN0 s2 (hS.sym.cand s s1).key k1
    rw [← this]
    exact List.mem_map_of_mem s1
  refine ⟨k, k1, hmem, ?_⟩
  have hg0 : 0 < (Int.gcd c N : ℤ) := by exact_mod_cast Int.gcd_pos_of_ne_zero_right _ hN0.ne'
  have hgd : (Int.gcd c N : ℤ) ∣ N := Int.gcd_dvd_right _ _
  have hgN : (Int.gcd c N : ℤ) < N := by
    rcases (Int.le_of_dvd hN0 hgd).lt_or_eq with h | h
    · exact h
    · exact absurd (h ▸ Int.gcd_dvd_left c N) hnd
  have hix := List.idxOf_lt_length_of_mem ((hS.mod.dmem _).2 ⟨hg0, hgd⟩)
  rw [Symbdata.index2, j1]
  simp only
  rw [if_neg (by omega), i1]
  simp only
  rw [if_neg (by omega), neg_neg, Int.toNat_natCast, i3, if_pos hgN]
  simp only
  rw [if_neg (by omega), k2, if_pos hmem, Option.map_some]

theorem nodup_index {l : List ℤ} (h : l.Nodup) {i j : ℕ} {x : ℤ} (hi : l[i]? = some x)
    (hj : l[j]? = some x) : i = j := by
  rw [List.getElem?_eq_some_iff] at hi hj
  obtain ⟨a, ha⟩ := hi
  obtain ⟨b, hb⟩ := hj
  exact (List.Nodup.getElem_inj_iff h).1 (ha.trans hb.symm)

theorem noninv_nodup (hS : SymbOK N S) : S.noninv.Nodup := by
  rw [hS.mod.tab.noninv]; exact nonU_nodup _ _

theorem noninv_length (hN : 1 < N) (hS : SymbOK N S) : (S.noninv.length : ℤ) = S.nsymb1 - N := by
  rw [hS.mod.tab.noninv, nonU_length (by omega), hS.mod.nsymb1, hS.mod.phi]; ring

/-- the symbol at an index found by `index2` is equivalent to the symbol looked for -/
theorem index2_spec (hN : 1 < N) (hS : SymbOK N S) {c d : ℤ} (h : Unimod N c d) :
    ∃ i s, S.index2 c d = some i ∧ 0 ≤ i ∧ i < S.nsymb ∧ S.symbol i = some s ∧
      Equiv N s.1 s.2 c d := by
  have hN0 : 0 < N := by omega
  have hlen := noninv_length hN hS
  have hns : 0 ≤ S.nsymb2 := by rw [← hS.len]; omega
  have hpsi : S.nsymb = S.nsymb1 + S.nsymb2 := by
    rw [Moddata.nsymb, hS.mod.nsymb2]; ring
  by_cases hd : Int.gcd d N = 1
  · obtain ⟨v, v1, v2⟩ := index2_one hN hS c hd
    have h0 := Int.emod_nonneg (c * v) hN0.ne'
    have h1 := Int.emod_lt_of_pos (c * v) hN0
    refine ⟨_, ((c * v) % N, 1), v2, h0, by omega, ?_, ?_⟩
    · rw [Symbdata.symbol, if_neg (by omega), hS.mod.hN, if_pos h1]
    · obtain ⟨x, hx⟩ := v1
      obtain ⟨y, hy⟩ := dvd_emod_sub (c * v) N
      exact ⟨d, Int.isCoprime_iff_gcd_eq_one.2 hd,
        ⟨-(c * x) - d * y, by linear_combination -c * hx - d * hy⟩, by simp⟩
  · by_cases hc : Int.gcd c N = 1
    · obtain ⟨v, k, v1, v2, v3⟩ := index2_two hN hS hd hc
      have hk : k < S.noninv.length := (List.getElem?_eq_some_iff.1 v2).1
      refine ⟨_, (1, (v * d) % N), v3, by omega, by omega, ?_, ?_⟩
      · rw [Symbdata.symbol, if_neg (by omega), hS.mod.hN, if_neg (by omega), if_pos (by omega),
          show N + (k : ℤ) - N = k by ring, Int.toNat_natCast, v2, Option.map_some]
      · obtain ⟨x, hx⟩ := v1
        obtain ⟨y, hy⟩ := dvd_emod_sub (v * d) N
        exact ⟨c, Int.isCoprime_iff_gcd_eq_one.2 hc, by simp,
          ⟨-(d * x) - c * y, by linear_combination -d * hx - c * hy⟩⟩
    · obtain ⟨k, k1, k2, k3⟩ := index2_three hN hS ⟨h, hc, hd⟩
      have hix := List.idxOf_lt_length_of_mem k2
      have hget := List.getElem_idxOf hix
      have hix' := hix
      rw [List.length_map] at hix'
      rw [List.getElem_map] at hget
      have hl := hS.len
      refine ⟨_, S.specials.list[(S.specials.list.map (skey N)).idxOf k], k3, by omega, by omega,
        ?_, ?_⟩
      · rw [Symbdata.symbol, if_neg (by omega), hS.mod.hN, if_neg (by omega), if_neg (by omega),
          add_sub_cancel_left, Int.toNat_natCast, List.getElem?_eq_getElem hix']
      · have hcand := hS.sym.cand _ (List.getElem_mem hix')
        have hkey := hcand.key
        rw [hget] at hkey
        exact equiv_of_key hN0 hcand.special.1 h hkey k1

theorem symbol_spec (hN : 1 < N) (hS : SymbOK N S) {i : ℤ} (h0 : 0 ≤ i) (hi : i < S.nsymb) :
    ∃ s, S.symbol i = some s ∧ Unimod N s.1 s.2 ∧ S.index2 s.1 s.2 = some i := by
  have hN0 : 0 < N := by omega
  have hlen := noninv_length hN hS
  have hpsi : S.nsymb = S.nsymb1 + S.nsymb2 := by
    rw [Moddata.nsymb, hS.mod.nsymb2]; ring
  by_cases h1 : i < N
  · refine ⟨(i, 1), ?_, ⟨0, 1, 0, by ring⟩, ?_⟩
    · rw [Symbdata.symbol, if_neg (by omega), hS.mod.hN, if_pos h1]
    · obtain ⟨v, v1, v2⟩ := index2_one hN hS i (d := 1) (by simp)
      rw [v2, ← Int.emod_eq_of_lt h0 h1]
      congr 1
      rw [Int.emod_eq_of_lt h0 h1]
      conv_rhs => rw [← Int.emod_eq_of_lt h0 h1]
      apply emod_eq_of_dvd
      obtain ⟨x, hx⟩ := v1
      exact ⟨-(i * x), by linear_combination -i * hx⟩
  · by_cases h2 : i < S.nsymb1
    · have hk : (i - N).toNat < S.noninv.length := by omega
      have hget := List.getElem?_eq_getElem hk
      have hmem := List.getElem_mem hk
      generalize S.noninv[(i - N).toNat] = d at hget hmem
      rw [hS.mod.tab.noninv, mem_nonU] at hmem
      obtain ⟨m1, m2, m3⟩ := hmem
      refine ⟨(1, d), ?_, ⟨1, 0, 0, by ring⟩, ?_⟩
      · rw [Symbdata.symbol, if_neg (by omega), hS.mod.hN, if_neg h1, if_pos h2, hget,
          Option.map_some]
      · obtain ⟨v, k, v1, v2, v3⟩ := index2_two hN hS (c := 1) m3 (by simp)
        have : (v * d) % N = d := by
          conv_rhs => rw [← Int.emod_eq_of_lt (b := N) m1 (by omega)]
          apply emod_eq_of_dvd
          obtain ⟨x, hx⟩ := v1
          exact ⟨-(d * x), by linear_combination -d * hx⟩
        rw [this] at v2
        have := nodup_index (noninv_nodup hS) v2 hget
        rw [v3]; congr 1; omega
    · have hl := hS.len
      have hk : (i - S.nsymb1).toNat < S.specials.list.length := by omega
      have hmem := List.getElem_mem hk
      have hcand := hS.sym.cand _ hmem
      refine ⟨S.specials.list[(i - S.nsymb1).toNat], ?_, hcand.special.1, ?_⟩
      · rw [Symbdata.symbol, if_neg (by omega), hS.mod.hN, if_neg h1, if_neg h2,
          List.getElem?_eq_getElem hk]
      · obtain ⟨k, k1, k2, k3⟩ := index2_three hN hS hcand.special
        have hkk := key_unique hN0 (Equiv.refl N _ _) k1 hcand.key
        have hidx : (S.specials.list.map (skey N)).idxOf k = (i - S.nsymb1).toNat := by
          rw [hkk]
          have := List.Nodup.idxOf_getElem hS.sym.nodup (i - S.nsymb1).toNat
            (by rw [List.length_map]; exact hk)
          rwa [List.getElem_map] at this
        rw [k3, hidx]; congr 1; omega

theorem index2_equiv (hN : 1 < N) (hS : SymbOK N S) {c d c' d' : ℤ} (h : Unimod N c d)
    (he : Equiv N c d c' d') : S.index2 c' d' = S.index2 c d := by
  have hN0 : 0 < N := by omega
  have h' := Unimod.of_equiv he h
  obtain ⟨u, hu, hc, hd⟩ := id he
  have gc := gcd_eq_of_dvd_sub hu hc
  have gd := gcd_eq_of_dvd_sub hu hd
  obtain ⟨x, hx⟩ := hc
  obtain ⟨y, hy⟩ := hd
  by_cases hd1 : Int.gcd d N = 1
  · obtain ⟨v, ⟨a, ha⟩, v2⟩ := index2_one hN hS c hd1
    obtain ⟨v', ⟨a', ha'⟩, v2'⟩ := index2_one hN hS c' (gd.trans hd1)
    rw [v2, v2']
    congr 1
    apply emod_eq_of_dvd
    -- c v ≡ c v (v' d') ≡ c v v' u d ≡ c v' u ≡ c' v'
    exact ⟨c * a * v' * u + c * v * v' * y - x * v' - c * v * a', by
      linear_combination c * u * v' * ha + c * v * v' * hy - v' * hx - c * v * ha'⟩
  · by_cases hc1 : Int.gcd c N = 1
    · obtain ⟨v, k, ⟨a, ha⟩, v2, v3⟩ := index2_two hN hS hd1 hc1
      obtain ⟨v', k', ⟨a', ha'⟩, v2', v3'⟩ := index2_two hN hS (gd ▸ hd1) (gc.trans hc1)
      have : (v' * d') % N = (v * d) % N := by
        apply emod_eq_of_dvd
        exact ⟨d * a * v' * u + d * v * v' * x - y * v' - d * v * a', by
          linear_combination d * u * v' * ha + d * v * v' * hx - v' * hy - d * v * ha'⟩
      rw [this] at v2'
      rw [v3, v3', nodup_index (noninv_nodup hS) v2 v2']
    · obtain ⟨k, k1, -, k3⟩ := index2_three hN hS ⟨h, hc1, hd1⟩
      obtain ⟨k', k1', -, k3'⟩ := index2_three hN hS ⟨h', gc ▸ hc1, gd ▸ hd1⟩
      rw [k3, k3', key_unique hN0 he k1 k1']

namespace Props

/-- the constructor of `symbdata` at a level `N ≥ 2` completes without undefined behaviour, and
`nsymb` is the number of points of the projective line over `ℤ/N`: the number of unimodular pairs
divided by the number of units -/
theorem C40_constructor_partial {N : ℤ} (hN : 1 < N) {ps : List ℤ} (hps : Spec.IsPrimeDivisorList N ps) :
    ∃ S, Symbdata.make N ps = some S ∧ S.N = N ∧
      S.nsymb * Nat.totient N.toNat = Nat.card (UPair N.toNat) := by
  obtain ⟨S, h1, h2⟩ := specials_spec hN hps
  exact ⟨S, h1, h2.mod.hN, h2.mod.psi⟩

/-- every unimodular pair has an index in range, and the symbol with this index is equivalent to
the pair -/
theorem C40_index_partial {N : ℤ} (hN : 1 < N) {ps : List ℤ} (hps : Spec.IsPrimeDivisorList N ps)
    {S : Symbdata} (hS : Symbdata.make N ps = some S) {c d : ℤ} (h : Unimod N c d) :
    ∃ i s, S.index2 c d = some i ∧ 0 ≤ i ∧ i < S.nsymb ∧ S.symbol i = some s ∧
      Equiv N s.1 s.2 c d := by
  obtain ⟨S', h1, h2⟩ := specials_spec hN hps
  rw [hS, Option.some.injEq] at h1
  subst h1
  exact index2_spec hN h2 h

/-- `index (symbol i) = i` for every index in range, and the symbol is unimodular -/
theorem C40_symbol_partial {N : ℤ} (hN : 1 < N) {ps : List ℤ} (hps : Spec.IsPrimeDivisorList N ps)
    {S : Symbdata} (hS : Symbdata.make N ps = some S) {i : ℤ} (h0 : 0 ≤ i) (hi : i < S.nsymb) :
    ∃ s, S.symbol i = some s ∧ Unimod N s.1 s.2 ∧ S.index s = some i := by
  obtain ⟨S', h1, h2⟩ := specials_spec hN hps
  rw [hS, Option.some.injEq] at h1
  subst h1
  exact symbol_spec hN h2 h0 hi

/-- two unimodular pairs have the same index if and only if they are equivalent -/
theorem C40_index_class_partial {N : ℤ} (hN : 1 < N) {ps : List ℤ} (hps : Spec.IsPrimeDivisorList N ps)
    {S : Symbdata} (hS : Symbdata.make N ps = some S) {c d c' d' : ℤ} (h : Unimod N c d)
    (h' : Unimod N c' d') : S.index2 c d = S.index2 c' d' ↔ Equiv N c d c' d' := by
  obtain ⟨S', h1, h2⟩ := specials_spec hN hps
  rw [hS, Option.some.injEq] at h1
  subst h1
  refine ⟨fun he => ?_, fun he => (index2_equiv hN h2 h he).symm⟩
  obtain ⟨i, s, i1, -, -, i4, i5⟩ := index2_spec hN h2 h
  obtain ⟨j, t, j1, -, -, j4, j5⟩ := index2_spec hN h2 h'
  rw [i1, j1, Option.some.injEq] at he
  subst he
  rw [i4, Option.some.injEq] at j4
  subst j4
  exact Equiv.trans (Equiv.symm i5) j5

/-- at level 1 the constructor succeeds but a lookup reads the first element of the empty vector
`noninvdlist` (symb.cc:169) -/
theorem C40_level_one :
    ((Symbdata.make 1 []).map fun S => S.index2 0 1) = some none := by
  decide +kernel

/-- the hypotheses at level 12, a level with special symbols -/
example : Spec.IsPrimeDivisorList 12 [2, 3] ∧ Unimod 12 4 3 ∧ Special 12 4 3 ∧
    Equiv 12 4 3 8 3 := by
  refine ⟨⟨by simp, fun p => ?_⟩, ⟨1, -1, 0, by norm_num⟩, ⟨⟨1, -1, 0, by norm_num⟩, by decide,
    by decide⟩, ⟨5, ⟨-7, 3, by norm_num⟩, ⟨-1, by norm_num⟩, ⟨-1, by norm_num⟩⟩⟩
  constructor
  · intro h
    rcases List.mem_cons.mp h with rfl | h
    · exact ⟨by norm_num, Int.prime_two, by norm_num⟩
    · rcases List.mem_singleton.mp h with rfl
      exact ⟨by norm_num, Int.prime_three, by norm_num⟩
  · rintro ⟨h0, hp, hd⟩
    have := Int.le_of_dvd (by norm_num) hd
    interval_cases p <;> first
      | (simp; done)
      | exact absurd hd (by decide)
      | exact absurd hp (by rw [Int.prime_iff_natAbs_prime]; norm_num)

theorem Equiv.apply {N c d c' d' : ℤ} (h : Equiv N c d c' d') (a b x y : ℤ) :
    Equiv N (a * c + b * d) (x * c + y * d) (a * c' + b * d') (x * c' + y * d') := by
  obtain ⟨u, hu, ⟨s, hs⟩, ⟨t, ht⟩⟩ := h
  exact ⟨u, hu, ⟨a * s + b * t, by linear_combination a * hs + b * ht⟩,
    ⟨x * s + y * t, by linear_combination x * hs + y * ht⟩⟩

theorem Unimod.apply {N c d : ℤ} (h : Unimod N c d) {a b x y e : ℤ} (he : a * y - b * x = e)
    (h1 : e * e = 1) : Unimod N (a * c + b * d) (x * c + y * d) := by
  obtain ⟨p, q, k, hk⟩ := h
  refine ⟨e * (p * y - q * x), e * (q * a - p * b), k, ?_⟩
  subst he
  linear_combination hk + (p * c + q * d) * h1


/-- the map on indices induced by a matrix of determinant `±1` -/
def act (S : Symbdata) (a b x y i : ℤ) : Option ℤ :=
  (S.symbol i).bind fun s => S.index2 (a * s.1 + b * s.2) (x * s.1 + y * s.2)

theorem act_spec {N : ℤ} (hN : 1 < N) {S : Symbdata} (hS : SymbOK N S) {i : ℤ}
    (h0 : 0 ≤ i) (hi : i < S.nsymb) {a b x y e : ℤ} (he : a * y - b * x = e) (h1 : e * e = 1)
    {s : ℤ × ℤ} (hs : S.symbol i = some s) :
    ∃ j t, act S a b x y i = some j ∧ 0 ≤ j ∧ j < S.nsymb ∧ S.symbol j = some t ∧
      Equiv N t.1 t.2 (a * s.1 + b * s.2) (x * s.1 + y * s.2) := by
  obtain ⟨s', s1, s2, s3⟩ := symbol_spec hN hS h0 hi
  rw [hs, Option.some.injEq] at s1
  subst s1
  obtain ⟨j, t, j1, j2⟩ := index2_spec hN hS (Unimod.apply s2 he h1)
  exact ⟨j, t, by rw [act, hs, Option.bind_some, j1], j2⟩

theorem symbol_unique {N : ℤ} (hN : 1 < N) {S : Symbdata} (hS : SymbOK N S) {i j : ℤ}
    (h0 : 0 ≤ i) (hi : i < S.nsymb) (h0' : 0 ≤ j) (hj : j < S.nsymb) {s t : ℤ × ℤ}
    (hs : S.symbol i = some s) (ht : S.symbol j = some t) (he : Equiv N s.1 s.2 t.1 t.2) :
    i = j := by
  obtain ⟨s', s1, s2, s3⟩ := symbol_spec hN hS h0 hi
  obtain ⟨t', t1, t2, t3⟩ := symbol_spec hN hS h0' hj
  rw [hs, Option.some.injEq] at s1
  rw [ht, Option.some.injEq] at t1
  subst s1; subst t1
  have := index2_equiv hN hS s2 he
  rw [s3, t3, Option.some.injEq] at this
  exact this.symm

/-- a matrix of determinant `±1` whose square is `±1` induces an involution -/
theorem act_involution {N : ℤ} (hN : 1 < N) {S : Symbdata} (hS : SymbOK N S) {i : ℤ}
    (h0 : 0 ≤ i) (hi : i < S.nsymb) {a b x y e f : ℤ} (he : a * y - b * x = e) (h1 : e * e = 1)
    (hf : f * f = 1) (f1 : a * a + b * x = f) (f2 : (a + y) * b = 0) (f3 : x * (a + y) = 0)
    (f4 : x * b + y * y = f) {s : ℤ × ℤ} (hs : S.symbol i = some s) :
    ∃ j t, act S a b x y i = some j ∧ 0 ≤ j ∧ j < S.nsymb ∧ S.symbol j = some t ∧
      Equiv N t.1 t.2 (a * s.1 + b * s.2) (x * s.1 + y * s.2) ∧ act S a b x y j = some i := by
  obtain ⟨j, t, j1, j2, j3, j4, j5⟩ := act_spec hN hS h0 hi he h1 hs
  obtain ⟨k, r, k1, k2, k3, k4, k5⟩ := act_spec hN hS j2 j3 he h1 j4
  refine ⟨j, t, j1, j2, j3, j4, j5, ?_⟩
  rw [k1, symbol_unique hN hS k2 k3 h0 hi k4 hs]
  refine Equiv.trans k5 (Equiv.trans (Equiv.apply j5 a b x y) ?_)
  refine ⟨f, ⟨f, 0, by linear_combination hf⟩, ⟨0, ?_⟩, ⟨0, ?_⟩⟩
  · linear_combination -s.1 * f * f1 - s.2 * f * f2 - s.1 * hf
  · linear_combination -s.1 * f * f3 - s.2 * f * f4 - s.2 * hf

section C59

variable {N : ℤ} (hN : 1 < N) {ps : List ℤ} (hps : Spec.IsPrimeDivisorList N ps)
  {S : Symbdata} (hS : Symbdata.make N ps = some S) {i : ℤ} (h0 : 0 ≤ i) (hi : i < S.nsymb)
  {c d : ℤ} (hs : S.symbol i = some (c, d))

include hN hps hS in
theorem ok_of_make : SymbOK N S := by
  obtain ⟨S', h1, h2⟩ := specials_spec hN hps
  rw [hS, Option.some.injEq] at h1
  exact h1 ▸ h2

include hN hps hS h0 hi hs

/-- `rof` is the involution `(c:d) ↦ (d:c)` -/
theorem C59_rof : ∃ j t, S.rof i = some j ∧ 0 ≤ j ∧ j < S.nsymb ∧ S.symbol j = some t ∧
    Equiv N t.1 t.2 d c ∧ S.rof j = some i := by
  have h := act_involution hN (ok_of_make hN hps hS) h0 hi (a := 0) (b := 1) (x := 1) (y := 0)
    (e := -1) (f := 1) (by norm_num) (by norm_num) (by norm_num) (by norm_num) (by norm_num)
    (by norm_num) (by norm_num) hs
  simpa [act, Symbdata.rof] using h

/-- `rsof` is the involution `(c:d) ↦ (-c:d)` -/
theorem C59_rsof : ∃ j t, S.rsof i = some j ∧ 0 ≤ j ∧ j < S.nsymb ∧ S.symbol j = some t ∧
    Equiv N t.1 t.2 (-c) d ∧ S.rsof j = some i := by
  have h := act_involution hN (ok_of_make hN hps hS) h0 hi (a := -1) (b := 0) (x := 0) (y := 1)
    (e := -1) (f := 1) (by norm_num) (by norm_num) (by norm_num) (by norm_num) (by norm_num)
    (by norm_num) (by norm_num) hs
  simpa [act, Symbdata.rsof] using h

/-- `sof` is the involution `(c:d) ↦ (-d:c)` -/
theorem C59_sof : ∃ j t, S.sof i = some j ∧ 0 ≤ j ∧ j < S.nsymb ∧ S.symbol j = some t ∧
    Equiv N t.1 t.2 (-d) c ∧ S.sof j = some i := by
  have h := act_involution hN (ok_of_make hN hps hS) h0 hi (a := 0) (b := -1) (x := 1) (y := 0)
    (e := 1) (f := -1) (by norm_num) (by norm_num) (by norm_num) (by norm_num) (by norm_num)
    (by norm_num) (by norm_num) hs
  simpa [act, Symbdata.sof] using h

/-- `tof` is the map `(c:d) ↦ (c-d:c)`, of order dividing 3 -/
theorem C59_tof : ∃ j k t, S.tof i = some j ∧ 0 ≤ j ∧ j < S.nsymb ∧ S.symbol j = some t ∧
    Equiv N t.1 t.2 (c - d) c ∧ S.tof j = some k ∧ 0 ≤ k ∧ k < S.nsymb ∧ S.tof k = some i := by
  have ok := ok_of_make hN hps hS
  have hact : ∀ m, S.tof m = act S 1 (-1) 1 0 m := by
    intro m
    simp [act, Symbdata.tof, sub_eq_add_neg]
  obtain ⟨j, t, j1, j2, j3, j4, j5⟩ := act_spec hN ok h0 hi (a := 1) (b := -1) (x := 1) (y := 0)
    (e := 1) (by norm_num) (by norm_num) hs
  obtain ⟨k, r, k1, k2, k3, k4, k5⟩ := act_spec hN ok j2 j3 (a := 1) (b := -1) (x := 1) (y := 0)
    (e := 1) (by norm_num) (by norm_num) j4
  obtain ⟨l, q, l1, l2, l3, l4, l5⟩ := act_spec hN ok k2 k3 (a := 1) (b := -1) (x := 1) (y := 0)
    (e := 1) (by norm_num) (by norm_num) k4
  refine ⟨j, k, t, by rw [hact, j1], j2, j3, j4, ?_, by rw [hact, k1], k2, k3, ?_⟩
  · simpa [sub_eq_add_neg] using j5
  · rw [hact, l1, symbol_unique hN ok l2 l3 h0 hi l4 hs]
    refine Equiv.trans l5 (Equiv.trans (Equiv.apply (Equiv.trans k5 (Equiv.apply j5 _ _ _ _))
      _ _ _ _) ?_)
    exact ⟨-1, ⟨-1, 0, by ring⟩, ⟨0, by ring⟩, ⟨0, by ring⟩⟩

end C59

end Props

end Eclib.Symb
