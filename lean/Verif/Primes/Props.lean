import Verif.Primes.Sieve
import Mathlib.Data.List.Sort

/-! # Theorems about the prime table (C48) -/

namespace Eclib.Primes

/-- consecutive primes below `N` differ by less than 256 (they do for `N` up to 436273009) -/
def Gaps (N : Nat) : Prop :=
  ∀ i, Nat.nth Nat.Prime (i + 1) < N → Nat.nth Nat.Prime (i + 1) - Nat.nth Nat.Prime i < 256

/-- the bound actually used by the table for `maxnum`: it is larger than `maxnum+255` -/
def bound (maxnum : Nat) : Nat := 2 * ((maxnum + 257) / 2)

theorem nth_lt_nth_succ (i : Nat) : Nat.nth Nat.Prime i < Nat.nth Nat.Prime (i + 1) :=
  Nat.nth_strictMono Nat.infinite_setOfPred_prime (Nat.lt_succ_self i)

theorem gap_pos (i : Nat) : 0 < gap i := by
  rw [gap]
  split_ifs with h
  · omega
  · have := nth_lt_nth_succ (i - 1)
    rw [Nat.sub_add_cancel (by omega)] at this
    omega

/-- sum of the differences -/
theorem sum_gap (i : Nat) : ∑ j ∈ Finset.range (i + 1), gap j = Nat.nth Nat.Prime i := by
  induction i with
  | zero => simp [gap, Nat.nth_prime_zero_eq_two]
  | succ i ih =>
    rw [Finset.sum_range_succ, ih, gap, if_neg (by omega), Nat.add_sub_cancel]
    have := nth_lt_nth_succ i
    omega

/-- what the users of a table rely on: it is `init` of some bound within which the differences of
the primes fit into a byte -/
structure Good (N : Nat) (t : Table) : Prop where
  num : t.nprimes = Nat.count Nat.Prime N
  pos : 0 < t.nprimes
  big : t.biggest = Nat.nth Nat.Prime (t.nprimes - 1)
  dif : ∀ i < t.nprimes, t.diff i = gap i
  fin : t.diff t.nprimes = 0

theorem nth_lt_of_lt_count {N i : Nat} (h : i < Nat.count Nat.Prime N) :
    Nat.nth Nat.Prime i < N := Nat.nth_lt_of_lt_count h

theorem good_init {maxnum : Nat} (hg : Gaps (bound maxnum)) :
    ∃ t, init maxnum = some t ∧ Good (bound maxnum) t := by
  obtain ⟨t, e, h1, h2, h3, h4, h5⟩ := init_spec maxnum
  refine ⟨t, e, h1, h2, h3, fun i hi => ?_, h5⟩
  rw [h4 i hi, Nat.mod_eq_of_lt]
  rw [gap]
  split_ifs with h
  · omega
  · have := hg (i - 1)
    rw [Nat.sub_add_cancel (by omega)] at this
    exact this (nth_lt_of_lt_count (by rw [h1] at hi; exact hi))

/-- **C48**, memory safety: for every bound the sieve and the compression stay inside the array
(reads and writes outside it are the outcome `none`) and terminate. -/
theorem C48_safe (maxnum : Nat) : ∃ t, init maxnum = some t := by
  obtain ⟨t, e, -⟩ := init_spec maxnum
  exact ⟨t, e⟩

/-- **C48**, the table: for every bound within which prime gaps fit into a byte, the running sums
of the table are exactly the primes below the (slightly enlarged) bound in increasing order, the
table ends with `0`, `NPRIMES` is their number and `BIGGESTPRIME` the last of them. -/
theorem C48_table {maxnum : Nat} (hg : Gaps (bound maxnum)) :
    ∃ t, init maxnum = some t ∧
      (∀ i < t.nprimes, ∑ j ∈ Finset.range (i + 1), t.diff j = Nat.nth Nat.Prime i) ∧
      t.diff t.nprimes = 0 ∧
      (∀ p, p.Prime → (p < bound maxnum ↔ ∃ i < t.nprimes, p = Nat.nth Nat.Prime i)) ∧
      t.biggest.Prime ∧ t.biggest < bound maxnum ∧
      ∀ p, p.Prime → p < bound maxnum → p ≤ t.biggest := by
  obtain ⟨t, e, g⟩ := good_init hg
  have hmem : ∀ p, p.Prime → (p < bound maxnum ↔ ∃ i < t.nprimes, p = Nat.nth Nat.Prime i) := by
    intro p hp
    constructor
    · intro hlt
      refine ⟨Nat.count Nat.Prime p, ?_, (Nat.nth_count hp).symm⟩
      rw [g.num]
      exact (Nat.count_strict_mono hp hlt)
    · rintro ⟨i, hi, rfl⟩
      rw [g.num] at hi
      exact nth_lt_of_lt_count hi
  refine ⟨t, e, fun i hi => ?_, g.fin, hmem, ?_, ?_, ?_⟩
  · rw [← sum_gap]
    refine Finset.sum_congr rfl fun j hj => ?_
    have := Finset.mem_range.mp hj
    exact g.dif j (by omega)
  · rw [g.big]
    exact Nat.prime_nth_prime _
  · rw [g.big]
    exact nth_lt_of_lt_count (by rw [← g.num]; have := g.pos; omega)
  · intro p hp hlt
    obtain ⟨i, hi, rfl⟩ := (hmem p hp).mp hlt
    rw [g.big]
    exact (Nat.nth_strictMono Nat.infinite_setOfPred_prime).monotone (by omega)

/-- the table reaches beyond the requested bound -/
theorem C48_bound (maxnum : Nat) : maxnum + 256 ≤ bound maxnum := by
  rw [bound]
  omega

/-! ### the position kept in the table -/

/-- positions reachable by any sequence of calls of the member functions -/
inductive Used (t : Table) : Cur → Prop
  /-- after `init` or `reset` -/
  | reset : Used t Cur.reset
  /-- after `advance` -/
  | advance {c : Cur} (h : Used t c) : Used t (advance t c).1
  /-- after `number(n)` -/
  | number {c : Cur} (n : Nat) (h : Used t c) : Used t (number t c n).1
  /-- after `getfirst(n)` -/
  | getfirst {c : Cur} (n : Nat) (h : Used t c) : Used t (getfirst t n).1

/-- prime number `n`, counted from `1`; `0` for `n = 0` -/
noncomputable def nthPrime (n : Nat) : Nat := if n = 0 then 0 else Nat.nth Nat.Prime (n - 1)

theorem nthPrime_succ (n : Nat) : nthPrime (n + 1) = nthPrime n + gap n := by
  rw [nthPrime, if_neg (by omega), nthPrime, Nat.add_sub_cancel, gap]
  split_ifs with h
  · rw [h, Nat.nth_prime_zero_eq_two]
  · have := nth_lt_nth_succ (n - 1)
    rw [Nat.sub_add_cancel (by omega)] at this
    omega

/-- the position is consistent -/
structure Valid (t : Table) (c : Cur) : Prop where
  ptr : c.aptr = c.ind
  le : c.ind ≤ t.nprimes
  val : c.val = nthPrime c.ind

theorem valid_reset (t : Table) : Valid t Cur.reset := ⟨rfl, Nat.zero_le _, by simp [Cur.reset, nthPrime]⟩

theorem advance_lt {N : Nat} {t : Table} (g : Good N t) {c : Cur} (h : Valid t c)
    (hc : c.ind < t.nprimes) :
    advance t c = (⟨c.ind + 1, c.ind + 1, nthPrime (c.ind + 1)⟩, true) := by
  rw [advance, h.ptr, g.dif _ hc, if_pos (by have := gap_pos c.ind; omega), h.val, nthPrime_succ]

theorem advance_end {N : Nat} {t : Table} (g : Good N t) {c : Cur} (h : Valid t c)
    (hc : c.ind = t.nprimes) : advance t c = (c, false) := by
  rw [advance, h.ptr, hc, g.fin, if_neg (by simp)]

theorem valid_advance {N : Nat} {t : Table} (g : Good N t) {c : Cur} (h : Valid t c) :
    Valid t (advance t c).1 := by
  rcases Nat.lt_or_eq_of_le h.le with hc | hc
  · rw [advance_lt g h hc]
    exact ⟨rfl, hc, rfl⟩
  · rw [advance_end g h hc]
    exact h

theorem numberLoop_spec {N : Nat} {t : Table} (g : Good N t) (n : Nat) (c : Cur)
    (h : Valid t c) (hn : c.ind ≤ n) :
    Valid t (numberLoop t n c) ∧ (numberLoop t n c).ind = min n t.nprimes := by
  fun_induction numberLoop t n c with
  | case1 c hlt c' ha hi ih =>
    rcases Nat.lt_or_eq_of_le h.le with hc | hc
    · rw [advance_lt g h hc] at ha
      cases ha
      exact ih ⟨rfl, hc, rfl⟩ hlt
    · rw [advance_end g h hc] at ha
      cases ha
  | case2 c hlt c' ha hi =>
    exfalso
    rcases Nat.lt_or_eq_of_le h.le with hc | hc
    · rw [advance_lt g h hc] at ha
      cases ha
      simp at hi
    · rw [advance_end g h hc] at ha
      cases ha
  | case3 c hlt c' ha =>
    rcases Nat.lt_or_eq_of_le h.le with hc | hc
    · rw [advance_lt g h hc] at ha
      cases ha
    · rw [advance_end g h hc] at ha
      cases ha
      exact ⟨h, by omega⟩
  | case4 c hlt =>
    have := h.le
    exact ⟨h, by omega⟩

theorem number_spec {N : Nat} {t : Table} (g : Good N t) (n : Nat) (c : Cur) (h : Valid t c) :
    Valid t (number t c n).1 ∧ (number t c n).2 = nthPrime (min n t.nprimes) := by
  simp only [number]
  have key : ∀ c', Valid t c' → c'.ind ≤ n → Valid t (numberLoop t n c') ∧
      (numberLoop t n c').val = nthPrime (min n t.nprimes) := by
    intro c' h' hn
    obtain ⟨h1, h2⟩ := numberLoop_spec g n c' h' hn
    exact ⟨h1, by rw [h1.val, h2]⟩
  split_ifs with hc
  · exact key _ (valid_reset t) (Nat.zero_le _)
  · exact key _ h (by omega)

theorem getfirstLoop_spec {N : Nat} {t : Table} (g : Good N t) (m : Nat) (c : Cur) (ans : List Nat)
    (h : Valid t c) :
    Valid t (getfirstLoop t m c ans).1 ∧ (c.ind + m ≤ t.nprimes →
      (getfirstLoop t m c ans).2 = ans ++ (List.range m).map fun i => nthPrime (c.ind + i + 1)) := by
  induction m generalizing c ans with
  | zero => simp [getfirstLoop, h]
  | succ m ih =>
    rw [getfirstLoop]
    rcases Nat.lt_or_eq_of_le h.le with hc | hc
    · rw [advance_lt g h hc]
      obtain ⟨h1, h2⟩ := ih ⟨c.ind + 1, c.ind + 1, nthPrime (c.ind + 1)⟩
        (ans ++ [nthPrime (c.ind + 1)]) ⟨rfl, hc, rfl⟩
      refine ⟨h1, fun hle => ?_⟩
      simp only at h2 ⊢
      rw [h2 (by omega), List.range_succ_eq_map, List.map_cons, List.map_map, List.append_assoc]
      simp only [List.cons_append, List.nil_append, Nat.add_zero]
      congr 2
      refine List.map_congr_left fun i _ => ?_
      simp only [Function.comp]
      congr 1
      omega
    · rw [advance_end g h hc]
      exact ⟨h, fun hle => by omega⟩

theorem used_valid {N : Nat} {t : Table} (g : Good N t) {c : Cur} (h : Used t c) : Valid t c := by
  induction h with
  | reset => exact valid_reset t
  | advance _ ih => exact valid_advance g ih
  | number n _ ih => exact (number_spec g n _ ih).1
  | getfirst n _ _ => exact (getfirstLoop_spec g n _ _ (valid_reset t)).1

/-- **C48**, `prime_number`: whatever calls were made before, `number(n)` is the `n`-th prime for
every `n` from `1` to `NPRIMES`; beyond the table it is the last prime of the table. -/
theorem C48_number {maxnum : Nat} (hg : Gaps (bound maxnum)) {t : Table} (ht : init maxnum = some t)
    {c : Cur} (hc : Used t c) (n : Nat) :
    (1 ≤ n → n ≤ t.nprimes → (number t c n).2 = Nat.nth Nat.Prime (n - 1)) ∧
    (t.nprimes < n → (number t c n).2 = t.biggest) := by
  obtain ⟨t', e, g⟩ := good_init hg
  rw [ht] at e
  cases e
  have h := (number_spec g n c (used_valid g hc)).2
  refine ⟨fun h1 h2 => ?_, fun h1 => ?_⟩
  · rw [h, nthPrime, if_neg (by omega), Nat.min_eq_left h2]
  · have := g.pos
    rw [h, nthPrime, if_neg (by omega), Nat.min_eq_right h1.le, g.big]

/-- **C48**, `primes(n)`: the first `n` primes in order, for every `n` up to `NPRIMES`. -/
theorem C48_getfirst {maxnum : Nat} (hg : Gaps (bound maxnum)) {t : Table}
    (ht : init maxnum = some t) (n : Nat) (hn : n ≤ t.nprimes) :
    (getfirst t n).2 = (List.range n).map (Nat.nth Nat.Prime) := by
  obtain ⟨t', e, g⟩ := good_init hg
  rw [ht] at e
  cases e
  have := (getfirstLoop_spec g n Cur.reset [] (valid_reset t)).2 (by simpa [Cur.reset] using hn)
  rw [getfirst, this, List.nil_append]
  refine List.map_congr_left fun i _ => ?_
  simp [Cur.reset, nthPrime]

/-! ### `primevar` -/

/-- a `primevar` of the table -/
structure VarOk (t : Table) (v : Var) : Prop where
  ptr : v.ind ≤ v.maxindex → v.ndiff = v.ind
  one : 1 ≤ v.ind
  max : v.maxindex ≤ t.nprimes
  val : v.ind ≤ v.maxindex → v.val = Nat.nth Nat.Prime (v.ind - 1)

theorem var_new {N : Nat} {t : Table} (g : Good N t) {c : Cur} (h : Valid t c) {m i : Nat}
    (hi : 1 ≤ i) (hm : m ≤ t.nprimes) : VarOk t (Var.new t c m i).2 := by
  refine ⟨fun _ => rfl, hi, hm, fun hle => ?_⟩
  simp only [Var.new] at hle ⊢
  rw [(number_spec g i c h).2, nthPrime, if_neg (by omega), Nat.min_eq_left (by omega)]

theorem next_val {N : Nat} {t : Table} (g : Good N t) {v : Var} (h : VarOk t v)
    (hv : v.ind ≤ v.maxindex) :
    VarOk t (v.next t) ∧ (v.next t).ind = v.ind + 1 ∧ (v.next t).maxindex = v.maxindex := by
  have h1 := h.one
  have h2 := h.max
  rw [Var.next, if_pos hv]
  refine ⟨⟨fun _ => by simp [h.ptr hv], by simp, h2, fun hle => ?_⟩, rfl, rfl⟩
  simp only at hle ⊢
  rw [h.ptr hv, g.dif _ (by omega), h.val hv, Nat.add_sub_cancel, gap, if_neg (by omega)]
  have := nth_lt_nth_succ (v.ind - 1)
  rw [Nat.sub_add_cancel h1] at this
  omega

theorem collect_spec {N : Nat} {t : Table} (g : Good N t) (v : Var) (h : VarOk t v) :
    v.collect t = (List.range (v.maxindex + 1 - v.ind)).map fun j =>
      Nat.nth Nat.Prime (v.ind - 1 + j) := by
  fun_induction Var.collect t v with
  | case1 v hv ih =>
    obtain ⟨h1, h2, h3⟩ := next_val g h hv
    rw [ih h1, h2, h3, h.val hv]
    have e : v.maxindex + 1 - v.ind = (v.maxindex + 1 - (v.ind + 1)) + 1 := by omega
    rw [e, List.range_succ_eq_map, List.map_cons, List.map_map]
    congr 1
    refine List.map_congr_left fun j _ => ?_
    simp only [Function.comp]
    congr 1
    have := h.one
    omega
  | case2 v hv =>
    have : v.maxindex + 1 - v.ind = 0 := by omega
    rw [this]
    rfl

/-- **C48**, `primevar`: the loop over `primevar(n)` runs through exactly the first `n` primes in
order, for every `n` up to `NPRIMES` (the default is all of them). -/
theorem C48_primevar {maxnum : Nat} (hg : Gaps (bound maxnum)) {t : Table}
    (ht : init maxnum = some t) {c : Cur} (hc : Used t c) (n : Nat) (hn : n ≤ t.nprimes) :
    (Var.new t c n 1).2.collect t = (List.range n).map (Nat.nth Nat.Prime) := by
  obtain ⟨t', e, g⟩ := good_init hg
  rw [ht] at e
  cases e
  rw [collect_spec g _ (var_new g (used_valid g hc) le_rfl hn)]
  simp [Var.new]

/-- **C48**, `prime_pi`: for `p` up to `BIGGESTPRIME` it is the number of primes below `p`; for
larger `p` the loop never ends. -/
theorem C48_prime_pi {maxnum : Nat} (hg : Gaps (bound maxnum)) {t : Table}
    (ht : init maxnum = some t) {c : Cur} (hc : Used t c) (p : Nat) :
    (p ≤ t.biggest → ∀ f, t.nprimes < f →
      primePiLoop t p f (Var.new t c t.nprimes 1).2 0 = some (Nat.count Nat.Prime p)) ∧
    (t.biggest < p → ∀ f, primePiLoop t p f (Var.new t c t.nprimes 1).2 0 = none) := by
  obtain ⟨t', e, g⟩ := good_init hg
  rw [ht] at e
  cases e
  have hv := var_new g (used_valid g hc) (le_refl 1) (le_refl t.nprimes)
  have hn : (Var.new t c t.nprimes 1).2.maxindex = t.nprimes := rfl
  have hi : (Var.new t c t.nprimes 1).2.ind = 1 := rfl
  have mono := Nat.nth_strictMono Nat.infinite_setOfPred_prime
  constructor
  · intro hp f hf
    have key : ∀ f v ip, VarOk t v → v.maxindex = t.nprimes → v.ind = ip + 1 → ip < t.nprimes →
        ip ≤ Nat.count Nat.Prime p → t.nprimes < f + ip → 
        primePiLoop t p f v ip = some (Nat.count Nat.Prime p) := by
      intro f
      induction f with
      | zero => intro v ip _ _ _ h _ h'; omega
      | succ f ih =>
        intro v ip h hm hip hlt hle hf
        have hval := h.val (by omega)
        rw [hip, Nat.add_sub_cancel] at hval
        rw [primePiLoop]
        split_ifs with hc
        · obtain ⟨h1, h2, h3⟩ := next_val g h (by omega)
          have hlt' : ip + 1 < t.nprimes := by
            by_contra hge
            have : ip = t.nprimes - 1 := by omega
            rw [g.big, ← this, ← hval] at hp
            omega
          refine ih _ (ip + 1) h1 (by omega) (by omega) hlt' ?_ (by omega)
          rw [hval] at hc
          have : Nat.count Nat.Prime (Nat.nth Nat.Prime ip) < Nat.count Nat.Prime p :=
            Nat.count_strict_mono (Nat.prime_nth_prime ip) hc
          rw [Nat.count_nth_of_infinite Nat.infinite_setOfPred_prime] at this
          omega
        · congr 1
          apply Nat.le_antisymm hle
          rw [hval] at hc
          rw [← Nat.count_nth_of_infinite Nat.infinite_setOfPred_prime ip]
          exact Nat.count_monotone _ (Nat.le_of_not_lt hc)
    exact key f _ 0 hv hn hi g.pos (Nat.zero_le _) (by omega)
  · intro hp f
    have key : ∀ f v ip, (v.val ≤ t.biggest ∧ (v.ind ≤ v.maxindex → VarOk t v)) →
        v.maxindex = t.nprimes → primePiLoop t p f v ip = none := by
      intro f
      induction f with
      | zero => intro v ip _ _; rfl
      | succ f ih =>
        intro v ip h hm
        rw [primePiLoop, if_pos (by omega)]
        by_cases hv : v.ind ≤ v.maxindex
        · obtain ⟨h1, h2, h3⟩ := next_val g (h.2 hv) hv
          refine ih _ _ ⟨?_, fun _ => h1⟩ (by omega)
          by_cases hv' : v.ind + 1 ≤ v.maxindex
          · rw [h1.val (by omega), g.big]
            exact mono.monotone (by omega)
          · have e : v.ind = t.nprimes := by omega
            rw [Var.next, if_pos hv]
            simp only
            rw [(h.2 hv).ptr hv, e, g.fin]
            exact h.1
        · refine ih _ _ ⟨?_, ?_⟩ ?_
          · rw [Var.next, if_neg hv]; exact h.1
          · rw [Var.next, if_neg hv]; intro hh; simp only at hh; omega
          · rw [Var.next, if_neg hv]; exact hm
    refine key f _ 0 ⟨?_, fun _ => hv⟩ hn
    rw [hv.val (by rw [hi, hn]; exact g.pos), g.big, hi]
    exact mono.monotone (by omega)

/-! ### `pdivs` and `primdiv` -/

theorem divOut_spec (p a : Nat) (hp : p.Prime) (ha : 0 < a) :
    0 < divOut p a ∧ divOut p a ≤ a ∧ ¬ p ∣ divOut p a ∧ divOut p a ∣ a ∧
      ∀ q, q.Prime → q ≠ p → (q ∣ divOut p a ↔ q ∣ a) := by
  fun_induction divOut p a with
  | case1 a h ih =>
    have hd : p ∣ a := Nat.dvd_of_mod_eq_zero h.2.2
    obtain ⟨b, rfl⟩ := hd
    have hb : p * b / p = b := Nat.mul_div_cancel_left b hp.pos
    rw [hb] at ih ⊢
    have hb0 : 0 < b := Nat.pos_of_mul_pos_left ha
    obtain ⟨h1, h2, h3, h4, h5⟩ := ih hb0
    refine ⟨h1, ?_, h3, h4.mul_left p, fun q hq hqp => ?_⟩
    · have := hp.pos
      nlinarith
    · rw [h5 q hq hqp, hq.dvd_mul]
      constructor
      · exact Or.inr
      · rintro (h | h)
        · exact absurd ((Nat.prime_dvd_prime_iff_eq hq hp).mp h) hqp
        · exact h
  | case2 a h =>
    refine ⟨ha, le_rfl, fun hd => h ⟨hp.one_lt, ha, Nat.mod_eq_zero_of_dvd hd⟩, dvd_refl a,
      fun q _ _ => Iff.rfl⟩

theorem prime_of_no_small {a b : Nat} (ha : 1 < a) (hb : a < b * b)
    (h : ∀ q, q.Prime → q < b → ¬ q ∣ a) : a.Prime := by
  by_contra hp
  have h1 := Nat.minFac_sq_le_self (by omega) hp
  have h2 : a.minFac < b := by
    by_contra hge
    have : b ≤ a.minFac := by omega
    nlinarith
  exact h _ (Nat.minFac_prime (by omega)) h2 (Nat.minFac_dvd a)

/-- primes below a prime of the table -/
theorem prime_lt_nth {i q : Nat} (hq : q.Prime) (h : q < Nat.nth Nat.Prime (i + 1)) :
    q ≤ Nat.nth Nat.Prime i := by
  have h1 := Nat.count_strict_mono hq h
  rw [Nat.count_nth_of_infinite Nat.infinite_setOfPred_prime] at h1
  rw [← Nat.nth_count hq]
  exact (Nat.nth_strictMono Nat.infinite_setOfPred_prime).monotone (by omega)

theorem pdivsLoop_spec {N : Nat} {t : Table} (g : Good N t) (a : Nat) (v : Var) (plist : List Nat)
    (hv : VarOk t v) (hm : v.maxindex = t.nprimes) (ha : 0 < a) (haN : a < N * N)
    (hnd : ∀ q, q.Prime → q < Nat.nth Nat.Prime (v.ind - 1) → ¬ q ∣ a) (hi : v.ind ≤ t.nprimes + 1) :
    ∃ L : List Nat, (let la := pdivsLoop t a v plist
        (if 1 < la.2 then la.1 ++ [la.2] else la.1) = plist ++ L) ∧
      L.Pairwise (· < ·) ∧ ∀ q, q ∈ L ↔ q.Prime ∧ q ∣ a := by
  fun_induction pdivsLoop t a v plist with
  | case1 a v plist h p hd ih =>
    obtain ⟨n1, n2, n3⟩ := next_val g hv h.2
    have hval : p = Nat.nth Nat.Prime (v.ind - 1) := hv.val h.2
    have hp : p.Prime := hval ▸ Nat.prime_nth_prime _
    obtain ⟨d1, d2, d3, d4, d5⟩ := divOut_spec p a hp ha
    have hone := hv.one
    obtain ⟨L, e, hs, hL⟩ := ih n1 (by omega) d1 (by omega) (by
      intro q hq hlt hdvd
      rw [n2] at hlt
      have e : v.ind + 1 - 1 = (v.ind - 1) + 1 := by omega
      rw [e] at hlt
      have hle := prime_lt_nth hq hlt
      rcases Nat.lt_or_eq_of_le hle with hlt' | heq
      · exact hnd q hq hlt' (hdvd.trans d4)
      · rw [heq, ← hval] at hdvd
        exact d3 hdvd) (by omega)
    refine ⟨p :: L, ?_, ?_, ?_⟩
    · simp only at e ⊢
      rw [e]
      simp
    · rw [List.pairwise_cons]
      refine ⟨fun q hq => ?_, hs⟩
      obtain ⟨hq1, hq2⟩ := (hL q).mp hq
      by_contra hge
      rcases Nat.lt_or_eq_of_le (Nat.le_of_not_lt hge) with hlt | heq
      · rw [hval] at hlt
        exact hnd q hq1 hlt (hq2.trans d4)
      · rw [heq] at hq2
        exact d3 hq2
    · intro q
      rw [List.mem_cons, hL]
      constructor
      · rintro (rfl | ⟨h1, h2⟩)
        · exact ⟨hp, Nat.dvd_of_mod_eq_zero hd⟩
        · exact ⟨h1, h2.trans d4⟩
      · rintro ⟨h1, h2⟩
        by_cases hqp : q = p
        · exact Or.inl hqp
        · exact Or.inr ⟨h1, (d5 q h1 hqp).mpr h2⟩
  | case2 a v plist h p hd hpp =>
    have hval : p = Nat.nth Nat.Prime (v.ind - 1) := hv.val h.2
    have hpr : a.Prime := prime_of_no_small h.1 hpp (by rw [hval]; exact hnd)
    refine ⟨[a], by simp, by simp, fun q => ?_⟩
    rw [List.mem_singleton]
    constructor
    · rintro rfl
      exact ⟨hpr, dvd_refl q⟩
    · rintro ⟨h1, h2⟩
      exact (Nat.prime_dvd_prime_iff_eq h1 hpr).mp h2
  | case3 a v plist h p hd hpp ih =>
    obtain ⟨n1, n2, n3⟩ := next_val g hv h.2
    have hval : p = Nat.nth Nat.Prime (v.ind - 1) := hv.val h.2
    have hone := hv.one
    exact ih n1 (by omega) ha haN (by
      intro q hq hlt hdvd
      rw [n2] at hlt
      have e : v.ind + 1 - 1 = (v.ind - 1) + 1 := by omega
      rw [e] at hlt
      have hle := prime_lt_nth hq hlt
      rcases Nat.lt_or_eq_of_le hle with hlt' | heq
      · exact hnd q hq hlt' hdvd
      · rw [heq, ← hval] at hdvd
        exact hd (Nat.mod_eq_zero_of_dvd hdvd)) (by omega)
  | case4 a v plist h =>
    by_cases h1 : 1 < a
    · have hpr : a.Prime := by
        refine prime_of_no_small h1 haN fun q hq hlt hdvd => ?_
        refine hnd q hq ?_ hdvd
        have e : v.ind - 1 = t.nprimes := by omega
        rw [e, g.num, ← Nat.nth_count hq]
        exact Nat.nth_strictMono Nat.infinite_setOfPred_prime (Nat.count_strict_mono hq hlt)
      refine ⟨[a], by simp [h1], by simp, fun q => ?_⟩
      rw [List.mem_singleton]
      constructor
      · rintro rfl
        exact ⟨hpr, dvd_refl q⟩
      · rintro ⟨h1, h2⟩
        exact (Nat.prime_dvd_prime_iff_eq h1 hpr).mp h2
    · have e : a = 1 := by omega
      refine ⟨[], by simp [h1], by simp, fun q => ?_⟩
      subst e
      simp only [List.not_mem_nil, Nat.dvd_one, false_iff]
      rintro ⟨h1, h2⟩
      exact h1.one_lt.ne' h2

/-- **C48**, `pdivs`: for every non-zero `a` below the square of the table's bound, the list of
`pdivs(a)` is increasing and consists of exactly the primes dividing `a`. -/
theorem C48_pdivs {maxnum : Nat} (hg : Gaps (bound maxnum)) {t : Table}
    (ht : init maxnum = some t) {c : Cur} (hc : Used t c) (a : Int) (ha : a ≠ 0)
    (hb : a.natAbs < bound maxnum ^ 2) :
    (pdivs t c a).Pairwise (· < ·) ∧ ∀ q, q ∈ pdivs t c a ↔ q.Prime ∧ (q : Int) ∣ a := by
  obtain ⟨t', e, g⟩ := good_init hg
  rw [ht] at e
  cases e
  have hv := var_new g (used_valid g hc) (le_refl 1) (le_refl t.nprimes)
  obtain ⟨L, e, h1, h2⟩ := pdivsLoop_spec g a.natAbs (Var.new t c t.nprimes 1).2 [] hv rfl
    (by omega) (by rw [← sq]; exact hb) (by
      intro q hq hlt
      have : Nat.nth Nat.Prime ((Var.new t c t.nprimes 1).2.ind - 1) = 2 := by
        have : (Var.new t c t.nprimes 1).2.ind - 1 = 0 := rfl
        rw [this, Nat.nth_prime_zero_eq_two]
      rw [this] at hlt
      exact absurd hq.two_le (by omega)) (by
      have : (Var.new t c t.nprimes 1).2.ind = 1 := rfl
      omega)
  rw [List.nil_append] at e
  have e' : pdivs t c a = L := e
  rw [e']
  refine ⟨h1, fun q => ?_⟩
  rw [h2, Int.natCast_dvd]

theorem primdivLoop_spec {N : Nat} {t : Table} (g : Good N t) (a : Nat) (v : Var)
    (hv : VarOk t v) (hm : v.maxindex = t.nprimes) (ha : 1 < a) (haN : a < N * N)
    (hnd : ∀ q, q.Prime → q < Nat.nth Nat.Prime (v.ind - 1) → ¬ q ∣ a) (hi : v.ind ≤ t.nprimes + 1) :
    (let p := primdivLoop t a v; if p = 0 then a else p) = a.minFac := by
  have hprime : a.Prime → a = a.minFac := fun h => h.minFac_eq.symm
  fun_induction primdivLoop t a v with
  | case1 v h q hd =>
    have hval : q = Nat.nth Nat.Prime (v.ind - 1) := hv.val h
    have hp : q.Prime := hval ▸ Nat.prime_nth_prime _
    simp only
    rw [if_neg hp.ne_zero]
    apply Nat.le_antisymm
    · by_contra hlt
      rw [hval] at hlt
      exact hnd _ (Nat.minFac_prime (by omega)) (by omega) (Nat.minFac_dvd a)
    · exact Nat.minFac_le_of_dvd hp.two_le (Nat.dvd_of_mod_eq_zero hd)
  | case2 v h q hd hqq =>
    have hval : q = Nat.nth Nat.Prime (v.ind - 1) := hv.val h
    simp only
    rw [if_neg (by omega)]
    exact hprime (prime_of_no_small ha hqq (by rw [hval]; exact hnd))
  | case3 v h q hd hqq ih =>
    obtain ⟨n1, n2, n3⟩ := next_val g hv h
    have hval : q = Nat.nth Nat.Prime (v.ind - 1) := hv.val h
    have hone := hv.one
    exact ih n1 (by omega) (by
      intro q' hq hlt hdvd
      rw [n2] at hlt
      have e : v.ind + 1 - 1 = (v.ind - 1) + 1 := by omega
      rw [e] at hlt
      have hle := prime_lt_nth hq hlt
      rcases Nat.lt_or_eq_of_le hle with hlt' | heq
      · exact hnd q' hq hlt' hdvd
      · rw [heq, ← hval] at hdvd
        exact hd (Nat.mod_eq_zero_of_dvd hdvd)) (by omega)
  | case4 v h =>
    simp only [if_true]
    refine hprime (prime_of_no_small ha haN fun q hq hlt hdvd => ?_)
    refine hnd q hq ?_ hdvd
    have e : v.ind - 1 = t.nprimes := by omega
    rw [e, g.num, ← Nat.nth_count hq]
    exact Nat.nth_strictMono Nat.infinite_setOfPred_prime (Nat.count_strict_mono hq hlt)

/-- **C48**, `primdiv`: the least prime divisor, for every `a` other than `0`, `1`, `-1` below the
square of the table's bound. -/
theorem C48_primdiv {maxnum : Nat} (hg : Gaps (bound maxnum)) {t : Table}
    (ht : init maxnum = some t) {c : Cur} (hc : Used t c) (a : Int) (ha : 1 < a.natAbs)
    (hb : a.natAbs < bound maxnum ^ 2) :
    (primdiv t c a).Prime ∧ (primdiv t c a : Int) ∣ a ∧
      ∀ q : Nat, q.Prime → (q : Int) ∣ a → primdiv t c a ≤ q := by
  obtain ⟨t', e, g⟩ := good_init hg
  rw [ht] at e
  cases e
  have hv := var_new g (used_valid g hc) (le_refl 1) (le_refl t.nprimes)
  have h := primdivLoop_spec g a.natAbs (Var.new t c t.nprimes 1).2 hv rfl ha
    (by rw [← sq]; exact hb) (by
      intro q hq hlt
      have : Nat.nth Nat.Prime ((Var.new t c t.nprimes 1).2.ind - 1) = 2 := by
        have : (Var.new t c t.nprimes 1).2.ind - 1 = 0 := rfl
        rw [this, Nat.nth_prime_zero_eq_two]
      rw [this] at hlt
      exact absurd hq.two_le (by omega)) (by
      have : (Var.new t c t.nprimes 1).2.ind = 1 := rfl
      omega)
  have e' : primdiv t c a = a.natAbs.minFac := h
  rw [e']
  refine ⟨Nat.minFac_prime (by omega), ?_, fun q hq hd => ?_⟩
  · rw [Int.natCast_dvd]
    exact Nat.minFac_dvd _
  · rw [Int.natCast_dvd] at hd
    exact Nat.minFac_le_of_dvd hq.two_le hd

end Eclib.Primes
