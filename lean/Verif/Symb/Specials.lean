import Verif.Symb.Orbit

/-!
# The list of special symbols
-/

namespace Eclib.Symb

open SymbSpec

theorem dvd_reduce_xmodmul {N : ℤ} (hN : 0 < N) (a b : ℤ) :
    reduce N (xmodmul a b N) = (a * b) % N := by
  rw [reduce_eq hN]
  apply Int.ModEq.eq
  apply (Int.modEq_iff_dvd).2
  rw [← dvd_neg]
  simpa using dvd_xmodmul a b N

variable {N : ℤ} {M : Moddata}

theorem emod_lt_toNat (hN : 0 < N) (r : ℤ) :
    (r % N).toNat < N.toNat ∧ (((r % N).toNat : ℕ) : ℤ) = r % N := by
  have h1 := Int.emod_nonneg r hN.ne'
  have h2 := Int.emod_lt_of_pos r hN
  omega

theorem gcd_emod (r : ℤ) : Int.gcd (r % N) N = Int.gcd r N := by
  rw [Int.gcd_emod]

theorem unitdiv_spec (hN : 0 < N) (hM : ModOK N M) (c : ℤ) :
    ∃ u, M.unitdiv c = some u ∧ IsCoprime u N ∧ N ∣ u * c - Int.gcd c N := by
  obtain ⟨h1, h2⟩ := emod_lt_toNat hN c
  obtain ⟨u, hu, hc, hd⟩ := hM.tab.units _ h1
  refine ⟨u, ?_, hc, ?_⟩
  · rw [Moddata.unitdiv, hM.hN, reduce_eq hN]; exact hu
  · rw [h2, gcd_emod] at hd
    obtain ⟨x, hx⟩ := hd
    obtain ⟨y, hy⟩ := dvd_emod_sub c N
    exact ⟨x - u * y, by linear_combination hx - u * hy⟩

theorem normalize_spec (hN : 0 < N) (hM : ModOK N M) {c : ℤ} (d : ℤ) (hc : ¬ N ∣ c) :
    ∃ k, M.normalize c d = some k ∧ Key N c d k := by
  obtain ⟨u, u1, u2, u3⟩ := unitdiv_spec hN hM c
  have hg0 : 0 < (Int.gcd c N : ℤ) := by exact_mod_cast Int.gcd_pos_of_ne_zero_right _ hN.ne'
  have hgd : (Int.gcd c N : ℤ) ∣ N := Int.gcd_dvd_right _ _
  have hgN : (Int.gcd c N : ℤ) < N := by
    rcases (Int.le_of_dvd hN hgd).lt_or_eq with h | h
    · exact h
    · exact absurd (h ▸ Int.gcd_dvd_left c N) hc
  have hcc : reduce N (xmodmul c u N) = Int.gcd c N := by
    rw [dvd_reduce_xmodmul hN, ← Int.emod_eq_of_lt hg0.le hgN]
    apply Int.ModEq.eq
    apply (Int.modEq_iff_dvd).2
    rw [← dvd_neg]
    rw [mul_comm]
    simpa using u3
  have hq : N.tdiv (Int.gcd c N) = N / (Int.gcd c N : ℤ) := Int.tdiv_eq_ediv_of_nonneg hN.le
  have hq0 : 0 < N / (Int.gcd c N : ℤ) := Int.ediv_pos_of_pos_of_dvd hN hg0.le hgd
  refine ⟨((Int.gcd c N : ℤ), (u * d) % (N / Int.gcd c N)), ?_, u, u2, u3, rfl⟩
  rw [Moddata.normalize, u1]
  simp only [hM.hN, hcc, hq]
  rw [if_neg hg0.ne', if_neg hq0.ne', dvd_reduce_xmodmul hN]
  rw [Int.tmod_eq_emod_of_nonneg (Int.emod_nonneg _ hN.ne'),
    Int.emod_emod_of_dvd _ (Int.ediv_dvd_of_dvd hgd), mul_comm]

/-- the key under which `add` stores a symbol -/
def skey (N : ℤ) (s : ℤ × ℤ) : ℤ × ℤ := (s.1, s.2 % (N / s.1))

/-- the symbols the double loop adds -/
structure Cand (N : ℤ) (s : ℤ × ℤ) : Prop where
  c1 : 1 < s.1
  cN : s.1 < N
  cd : s.1 ∣ N
  d0 : 0 < s.2
  dN : s.2 < N
  dn : Int.gcd s.2 N ≠ 1
  co : Int.gcd s.2 s.1 = 1

theorem Cand.key {s : ℤ × ℤ} (h : Cand N s) : Key N s.1 s.2 (skey N s) := by
  have hg := gcd_of_dvd (by linarith [h.c1]) h.cd
  exact ⟨1, isCoprime_one_left, by rw [hg]; simp, by rw [hg, one_mul]; rfl⟩

theorem Cand.not_dvd {s : ℤ × ℤ} (h : Cand N s) : ¬ N ∣ s.1 := fun hd => by
  have := Int.le_of_dvd (by linarith [h.c1]) hd
  linarith [h.cN]

theorem Cand.special {s : ℤ × ℤ} (h : Cand N s) : Special N s.1 s.2 := by
  refine ⟨?_, ?_, h.dn⟩
  · obtain ⟨a, b, e⟩ := Int.isCoprime_iff_gcd_eq_one.2 h.co
    exact ⟨b, a, 0, by linear_combination e⟩
  · have hg := gcd_of_dvd (by linarith [h.c1]) h.cd
    intro h1
    rw [h1] at hg
    have := h.c1
    push_cast at hg
    omega

/-- the list and the hash table agree -/
structure SymOK (N : ℤ) (L : Symblist) : Prop where
  hash : L.hash = (L.list.map (skey N)).zipIdx.map fun p => (p.1, (p.2 : ℤ))
  cand : ∀ s ∈ L.list, Cand N s
  nodup : (L.list.map (skey N)).Nodup

theorem lookup_zipIdx (ks : List (ℤ × ℤ)) (m : ℕ) (k : ℤ × ℤ) :
    ((ks.zipIdx m).map fun p => (p.1, (p.2 : ℤ))).lookup k =
      if k ∈ ks then some ((m + ks.idxOf k : ℕ) : ℤ) else none := by
  induction ks generalizing m with
  | nil => simp
  | cons a ks ih =>
    rw [List.zipIdx_cons, List.map_cons, List.lookup_cons, ih]
    by_cases h : k = a
    · subst h; simp
    · have h' : (k == a) = false := by simpa using h
      have h'' : ¬ a = k := fun e => h e.symm
      simp only [h', List.mem_cons, h, false_or, List.idxOf_cons_ne _ h'']
      split_ifs
      · congr 2; omega
      · rfl

/-- `symblist::index` -/
theorem lookup_spec (hN : 0 < N) (hM : ModOK N M) {L : Symblist} (hL : SymOK N L) {c : ℤ} (d : ℤ)
    (hc : ¬ N ∣ c) : ∃ k, Key N c d k ∧ M.lookup L c d =
      some (if k ∈ L.list.map (skey N) then ((L.list.map (skey N)).idxOf k : ℤ) else -1) := by
  obtain ⟨k, k1, k2⟩ := normalize_spec hN hM d hc
  refine ⟨k, k2, ?_⟩
  rw [Moddata.lookup, k1, Option.map_some, hL.hash, lookup_zipIdx]
  split_ifs <;> simp

theorem add_spec (hN : 0 < N) (hM : ModOK N M) {L : Symblist} (hL : SymOK N L) {c d : ℤ}
    (hs : Cand N (c, d)) (hlen : (L.list.length : ℤ) < M.nsymb2) :
    ∃ L', M.add L c d = some L' ∧ SymOK N L' ∧ L.list <+: L'.list ∧
      skey N (c, d) ∈ L'.list.map (skey N) ∧ (L'.list.length : ℤ) ≤ M.nsymb2 := by
  obtain ⟨k, k1, k2⟩ := lookup_spec hN hM hL d hs.not_dvd
  have hk : k = skey N (c, d) := key_unique hN (Equiv.refl N c d) k1 hs.key
  rw [Moddata.add, k2, Option.bind_some, hk]
  by_cases hin : skey N (c, d) ∈ L.list.map (skey N)
  · rw [if_pos hin, if_neg (by omega)]
    exact ⟨L, rfl, hL, List.prefix_rfl, hin, hlen.le⟩
  · have hc1 : 1 < c := hs.c1
    have hq : N.tdiv c = N / c := Int.tdiv_eq_ediv_of_nonneg hN.le
    have hq0 : 0 < N / c := Int.ediv_pos_of_pos_of_dvd hN (by omega) hs.cd
    rw [if_neg hin, if_pos rfl, if_pos hlen, hM.hN, hq, if_neg (by omega)]
    refine ⟨_, rfl, ?_, List.prefix_append _ _, by simp, by simp; omega⟩
    constructor
    · simp only [List.map_append, List.map_cons, List.map_nil, List.zipIdx_append, hL.hash]
      congr 1
      rw [Arith.posmod_eq_emod _ _ hq0]
      simp [skey]
    · intro s hsm
      rcases List.mem_append.1 hsm with h | h
      · exact hL.cand s h
      · rw [List.mem_singleton] at h; subst h; exact hs
    · rw [List.map_append, List.nodup_append]
      refine ⟨hL.nodup, by simp, ?_⟩
      intro a ha b hb hab
      rw [List.map_cons, List.map_nil, List.mem_singleton] at hb
      subst hb; subst hab
      exact hin ha

theorem prefix_keys {l l' : List (ℤ × ℤ)} (h : l <+: l') {k : ℤ × ℤ} (hk : k ∈ l.map (skey N)) :
    k ∈ l'.map (skey N) := by
  obtain ⟨t, rfl⟩ := h
  rw [List.map_append]
  exact List.mem_append_left _ hk

theorem inner_fold (hN : 0 < N) (hM : ModOK N M) {c : ℤ} (hc1 : 1 < c) (hcN : c < N) (hcd : c ∣ N)
    (ds : List ℤ) (hds : ∀ d ∈ ds, 0 < d ∧ d < N ∧ Int.gcd d N ≠ 1) (L : Symblist)
    (hL : SymOK N L) (hlen : (L.list.length : ℤ) ≤ M.nsymb2) :
    ∃ L', ds.foldlM (M.inner c) L = some L' ∧ SymOK N L' ∧ L.list <+: L'.list ∧
      (L'.list.length : ℤ) ≤ M.nsymb2 ∧
      ((L'.list.length : ℤ) < M.nsymb2 → ∀ d ∈ ds, Int.gcd d c = 1 →
        skey N (c, d) ∈ L'.list.map (skey N)) := by
  induction ds generalizing L with
  | nil => exact ⟨L, rfl, hL, List.prefix_rfl, hlen, by simp⟩
  | cons d ds ih =>
    obtain ⟨h1, h2, h3⟩ := hds d List.mem_cons_self
    have hstep : ∃ L1, M.inner c L d = some L1 ∧ SymOK N L1 ∧ L.list <+: L1.list ∧
        (L1.list.length : ℤ) ≤ M.nsymb2 ∧ ((L1.list.length : ℤ) < M.nsymb2 → Int.gcd d c = 1 →
          skey N (c, d) ∈ L1.list.map (skey N)) := by
      rw [Moddata.inner]
      by_cases hl : (L.list.length : ℤ) < M.nsymb2
      · rw [if_pos hl, Arith.gcd_eq]
        by_cases hg : Int.gcd d c = 1
        · rw [if_pos (by exact_mod_cast hg)]
          obtain ⟨L1, a1, a2, a3, a4, a5⟩ := add_spec hN hM hL (c := c) (d := d)
            ⟨hc1, hcN, hcd, h1, h2, h3, hg⟩ hl
          exact ⟨L1, a1, a2, a3, a5, fun _ _ => a4⟩
        · rw [if_neg (by exact_mod_cast hg)]
          exact ⟨L, rfl, hL, List.prefix_rfl, hlen, fun _ h => absurd h hg⟩
      · rw [if_neg hl]
        exact ⟨L, rfl, hL, List.prefix_rfl, hlen, fun h => absurd h hl⟩
    obtain ⟨L1, a1, a2, a3, a4, a5⟩ := hstep
    obtain ⟨L', b1, b2, b3, b4, b5⟩ := ih (fun x hx => hds x (List.mem_cons_of_mem _ hx)) L1 a2 a4
    refine ⟨L', ?_, b2, a3.trans b3, b4, ?_⟩
    · rw [List.foldlM_cons, a1]; exact b1
    · intro hl x hx hg
      rcases List.mem_cons.1 hx with rfl | hx
      · have := b3.length_le
        exact prefix_keys b3 (a5 (by omega) hg)
      · exact b5 hl x hx hg

theorem outer_fold (hN : 0 < N) (hM : ModOK N M)
    (hds : ∀ d ∈ M.noninv.tail, 0 < d ∧ d < N ∧ Int.gcd d N ≠ 1)
    (cs : List ℤ) (hcs : ∀ c ∈ cs, 1 < c ∧ c < N ∧ c ∣ N) (L : Symblist)
    (hL : SymOK N L) (hlen : (L.list.length : ℤ) ≤ M.nsymb2) :
    ∃ L', cs.foldlM M.outer L = some L' ∧ SymOK N L' ∧ L.list <+: L'.list ∧
      (L'.list.length : ℤ) ≤ M.nsymb2 ∧
      ((L'.list.length : ℤ) < M.nsymb2 → ∀ c ∈ cs, ∀ d ∈ M.noninv.tail, Int.gcd d c = 1 →
        skey N (c, d) ∈ L'.list.map (skey N)) := by
  induction cs generalizing L with
  | nil => exact ⟨L, rfl, hL, List.prefix_rfl, hlen, by simp⟩
  | cons c cs ih =>
    obtain ⟨h1, h2, h3⟩ := hcs c List.mem_cons_self
    have hstep : ∃ L1, M.outer L c = some L1 ∧ SymOK N L1 ∧ L.list <+: L1.list ∧
        (L1.list.length : ℤ) ≤ M.nsymb2 ∧ ((L1.list.length : ℤ) < M.nsymb2 →
          ∀ d ∈ M.noninv.tail, Int.gcd d c = 1 → skey N (c, d) ∈ L1.list.map (skey N)) := by
      rw [Moddata.outer]
      by_cases hl : (L.list.length : ℤ) < M.nsymb2
      · rw [if_pos hl]
        exact inner_fold hN hM h1 h2 h3 _ hds L hL hlen
      · rw [if_neg hl]
        exact ⟨L, rfl, hL, List.prefix_rfl, hlen, fun h => absurd h hl⟩
    obtain ⟨L1, a1, a2, a3, a4, a5⟩ := hstep
    obtain ⟨L', b1, b2, b3, b4, b5⟩ := ih (fun x hx => hcs x (List.mem_cons_of_mem _ hx)) L1 a2 a4
    refine ⟨L', ?_, b2, a3.trans b3, b4, ?_⟩
    · rw [List.foldlM_cons, a1]; exact b1
    · intro hl x hx d hd hg
      rcases List.mem_cons.1 hx with rfl | hx
      · have := b3.length_le
        exact prefix_keys b3 (a5 (by omega) d hd hg)
      · exact b5 hl x hx d hd hg

/-! ### the finished list -/

theorem nonU_cons (hN : 1 < N) (n : ℕ) : ∃ t, nonU N (n + 1) = 0 :: t := by
  have h0 : Int.gcd (0 : ℕ) N ≠ 1 := by
    rw [Nat.cast_zero, Int.gcd_zero_left]; omega
  induction n with
  | zero => exact ⟨[], by rw [nonU_succ, if_pos h0]; simp [nonU]⟩
  | succ n ih =>
    obtain ⟨t, ht⟩ := ih
    exact ⟨_, by rw [nonU_succ, ht, List.cons_append]⟩

theorem mem_noninv_tail (hN : 1 < N) (hM : ModOK N M) {d : ℤ} :
    d ∈ M.noninv.tail ↔ 0 < d ∧ d < N ∧ Int.gcd d N ≠ 1 := by
  obtain ⟨t, ht⟩ := nonU_cons hN (N.toNat - 1)
  rw [show N.toNat - 1 + 1 = N.toNat by omega] at ht
  have hm := @mem_nonU N N.toNat d
  have hnd := nonU_nodup N N.toNat
  rw [hM.tab.noninv, ht, List.tail_cons]
  rw [ht] at hm hnd
  rw [List.nodup_cons] at hnd
  rw [List.mem_cons] at hm
  constructor
  · intro h
    obtain ⟨h1, h2, h3⟩ := hm.1 (Or.inr h)
    have : d ≠ 0 := by rintro rfl; exact hnd.1 h
    exact ⟨by omega, by omega, h3⟩
  · rintro ⟨h1, h2, h3⟩
    rcases hm.2 ⟨h1.le, by omega, h3⟩ with h | h
    · omega
    · exact h

theorem mem_dlist_mid (hN : 1 < N) (hM : ModOK N M) {c : ℤ} :
    c ∈ M.dlist.tail.dropLast ↔ 1 < c ∧ c < N ∧ c ∣ N := by
  have hd := hM.dmem c
  have hnd := hM.dnodup
  have hh := hM.dhead
  have hl := hM.dlast
  generalize M.dlist = l at hd hnd hh hl
  cases l with
  | nil => simp at hh
  | cons a t =>
    rw [List.head?_cons, Option.some.injEq] at hh
    subst hh
    have ht : t ≠ [] := by
      rintro rfl
      simp at hl; omega
    rw [List.getLast?_cons_of_ne_nil ht] at hl
    obtain ⟨m, rfl⟩ : ∃ m, t = m ++ [N] := by
      refine ⟨t.dropLast, ?_⟩
      rw [List.dropLast_append_getLast? _ hl]
    rw [List.tail_cons, List.dropLast_concat]
    rw [List.nodup_cons, List.nodup_append] at hnd
    obtain ⟨n1, n2, n3, n4⟩ := hnd
    rw [List.mem_cons, List.mem_append, List.mem_singleton] at hd
    constructor
    · intro h
      obtain ⟨h1, h2⟩ := hd.1 (Or.inr (Or.inl h))
      have hc1 : c ≠ 1 := by rintro rfl; exact n1 (List.mem_append_left _ h)
      have hcN : c ≠ N := by rintro rfl; exact n4 c h c (List.mem_singleton_self c) rfl
      have := Int.le_of_dvd (by omega) h2
      exact ⟨by omega, by omega, h2⟩
    · rintro ⟨h1, h2, h3⟩
      rcases hd.2 ⟨by omega, h3⟩ with h | h | h
      · omega
      · exact h
      · omega

/-- every special symbol is equivalent to one of those enumerated by the double loop -/
theorem exists_cand (hN : 1 < N) {c d : ℤ} (h : Special N c d) :
    ∃ s, Cand N s ∧ Equiv N s.1 s.2 c d := by
  obtain ⟨hu, hc, hd⟩ := h
  have hN0 : 0 < N := by omega
  obtain ⟨b1, b2⟩ := bezoutX_spec c N
  rw [b1] at b2
  obtain ⟨u, -, u2, u3⟩ := unitAdjust_spec hN0 b2
  have hg0 : 0 < (Int.gcd c N : ℤ) := by exact_mod_cast Int.gcd_pos_of_ne_zero_right _ hN0.ne'
  have hgd : (Int.gcd c N : ℤ) ∣ N := Int.gcd_dvd_right _ _
  have e1 := equiv_key (d := d) u2 u3
  have hco : IsCoprime (Int.gcd c N : ℤ) (u * d) := by
    have := isCoprime_gcd_of_unimod (Unimod.of_equiv e1 hu)
    rwa [gcd_of_dvd hg0.le hgd] at this
  have e2 : Equiv N c d (Int.gcd c N) ((u * d) % N) := by
    obtain ⟨w, w1, w2, w3⟩ := e1
    refine ⟨w, w1, w2, ?_⟩
    have := dvd_add w3 (dvd_emod_sub (u * d) N)
    simpa using this
  have hgcd : Int.gcd ((u * d) % N) N = Int.gcd d N := by
    rw [gcd_emod]
    exact gcd_eq_of_dvd_sub u2 (by simp)
  have hgN : (Int.gcd c N : ℤ) ≠ N := by
    intro h
    rw [h] at hco
    have : Int.gcd (u * d) N = 1 := by
      rw [Int.gcd_comm]; exact Int.isCoprime_iff_gcd_eq_one.1 hco
    rw [← gcd_emod, hgcd] at this
    exact hd this
  refine ⟨((Int.gcd c N : ℤ), (u * d) % N), ?_, Equiv.symm e2⟩
  have hle := Int.le_of_dvd hN0 hgd
  have hn := Int.emod_nonneg (u * d) hN0.ne'
  have hlt := Int.emod_lt_of_pos (u * d) hN0
  have hd0 : (u * d) % N ≠ 0 := by
    intro h0
    have := Unimod.of_equiv e2 hu
    rw [h0] at this
    obtain ⟨a, b, k, e⟩ := this
    obtain ⟨t, ht⟩ := hgd
    have h1 : (Int.gcd c N : ℤ) ∣ 1 := ⟨a + k * t, by linear_combination -e + k * ht⟩
    have := Int.le_of_dvd one_pos h1
    omega
  refine ⟨by change 1 < (Int.gcd c N : ℤ); omega, by change (Int.gcd c N : ℤ) < N; omega, hgd,
    by omega, hlt, by rw [hgcd]; exact hd, ?_⟩
  change Int.gcd ((u * d) % N) (Int.gcd c N : ℤ) = 1
  have := isCoprime_gcd_of_unimod (Unimod.of_equiv e2 hu)
  rw [gcd_of_dvd hg0.le hgd] at this
  rw [Int.gcd_comm]
  exact Int.isCoprime_iff_gcd_eq_one.1 this

/-- symbols of the list are pairwise inequivalent -/
theorem SymOK.inj (hN : 0 < N) {L : Symblist} (hL : SymOK N L) (i j : Fin L.list.length)
    (h : Equiv N L.list[i].1 L.list[i].2 L.list[j].1 L.list[j].2) : i = j := by
  have hk := key_unique hN h (hL.cand _ (List.getElem_mem i.2)).key
    (hL.cand _ (List.getElem_mem j.2)).key
  have hnd := hL.nodup
  have := (List.Nodup.getElem_inj_iff hnd (i := i) (j := j)
    (hi := by simp) (hj := by simp)).1 (by simpa using hk)
  exact Fin.ext this

/-- what the constructor of `symbdata` provides -/
structure SymbOK (N : ℤ) (S : Symbdata) : Prop where
  mod : ModOK N S.toModdata
  sym : SymOK N S.specials
  len : (S.specials.list.length : ℤ) = S.nsymb2
  complete : ∀ c d, Special N c d → ∃ s ∈ S.specials.list, Equiv N s.1 s.2 c d

theorem card_special (hN : 0 < N) (hM : ModOK N M) :
    (Nat.card (SPair N.toNat) : ℤ) = M.nsymb2 * Nat.totient N.toNat := by
  have hne : NeZero N.toNat := ⟨by omega⟩
  have h := card_spair N.toNat
  have hle := Nat.totient_le N.toNat
  have hp := hM.psi
  have hphi := hM.phi
  have hn1 := hM.nsymb1
  have hn2 := hM.nsymb2
  have hNN : ((N.toNat : ℕ) : ℤ) = N := Int.toNat_of_nonneg hN.le
  zify [hle] at h
  rw [hNN] at h
  rw [hn2, hn1, hphi]
  linear_combination h - hp

theorem specials_spec (hN : 1 < N) {ps : List ℤ} (hps : Spec.IsPrimeDivisorList N ps) :
    ∃ S, Symbdata.make N ps = some S ∧ SymbOK N S := by
  have hN0 : 0 < N := by omega
  have hne : NeZero N.toNat := ⟨by omega⟩
  have hNN : ((N.toNat : ℕ) : ℤ) = N := Int.toNat_of_nonneg hN0.le
  obtain ⟨M, m1, m2⟩ := make_spec hN0 hps
  have hcard := card_special hN0 m2
  have hphi : 0 < Nat.totient N.toNat := Nat.totient_pos.2 (by omega)
  have hphi' : (0 : ℤ) < Nat.totient N.toNat := by exact_mod_cast hphi
  have hns : 0 ≤ M.nsymb2 := by
    by_contra hneg
    have : M.nsymb2 * (Nat.totient N.toNat : ℤ) < 0 := mul_neg_of_neg_of_pos (by omega) hphi'
    omega
  have hiff : ∀ L : Symblist, SymOK N L →
      ((∀ c d : ℤ, Special N c d → ∃ s ∈ L.list, Equiv N s.1 s.2 c d) ↔
        (L.list.length : ℤ) = M.nsymb2) := by
    intro L hL
    have := complete_iff (n := N.toNat) L.list
      (by rw [hNN]; exact fun s hs => (hL.cand s hs).special)
      (by rw [hNN]; exact hL.inj hN0)
    rw [hNN] at this
    rw [this, ← Nat.cast_inj (R := ℤ), hcard]
    push_cast
    exact mul_left_inj' hphi'.ne'
  rw [Symbdata.make, m1, Option.bind_some]
  have hnil : SymOK N ⟨[], []⟩ := ⟨rfl, by simp, by simp⟩
  by_cases hpos : M.nsymb2 > 0
  · rw [if_pos hpos]
    obtain ⟨L, l1, l2, -, l4, l5⟩ := outer_fold hN0 m2
      (fun d hd => (mem_noninv_tail hN m2).1 hd) M.dlist.tail.dropLast
      (fun c hc => (mem_dlist_mid hN m2).1 hc) ⟨[], []⟩ hnil (by simpa using hns)
    have hlen : (L.list.length : ℤ) = M.nsymb2 := by
      rcases l4.lt_or_eq with h | h
      · rw [← hiff L l2]
        intro c d hcd
        obtain ⟨s, hs, he⟩ := exists_cand hN hcd
        have hk := l5 h s.1 ((mem_dlist_mid hN m2).2 ⟨hs.c1, hs.cN, hs.cd⟩) s.2
          ((mem_noninv_tail hN m2).2 ⟨hs.d0, hs.dN, hs.dn⟩) hs.co
        obtain ⟨s', hs', hk'⟩ := List.mem_map.1 hk
        refine ⟨s', hs', Equiv.trans ?_ he⟩
        have c' := l2.cand s' hs'
        exact equiv_of_key hN0 c'.special.1 hs.special.1 c'.key (by rw [hk']; exact hs.key)
      · exact h
    rw [l1]
    exact ⟨_, rfl, m2, l2, hlen, (hiff L l2).2 hlen⟩
  · rw [if_neg hpos]
    have h0 : (((⟨[], []⟩ : Symblist).list.length : ℕ) : ℤ) = M.nsymb2 := by
      change ((0 : ℕ) : ℤ) = _; push_cast; omega
    exact ⟨_, rfl, m2, hnil, h0, (hiff _ hnil).2 h0⟩

end Eclib.Symb
