import Mathlib.GroupTheory.SpecificGroups.Cyclic
import Mathlib.Tactic.FinCases
import Verif.Sat.Props
import Verif.Marith.Props
import Verif.Ff.TlssMap

/-!
# C104: the class saturator; C105: pCoTorsion
-/

set_option linter.unusedSectionVars false

namespace Eclib.Sat.Props

open Mat (M)

variable {G : Type} [AddCommGroup G] {e : Env G} {p : ℕ}

/-- a map proved to be a homomorphism in C103, composed with the reduction modulo `q`, meets the contract used for the sieve -/
theorem C104_maps {F : Type} [Field F] [DecidableEq F] {E : WeierstrassCurve F} {r : ℕ} {m : E.toAffine.Point → Option (List ℤ)}
    (hm : Ff.Props.IsMap p r m) (red : G →+ E.toAffine.Point) : TLOk p r fun A => (m (red A)).getD [] := by
  refine ⟨AddMonoidHom.mk' (fun A j => ((((m (red A)).getD []).getD j 0 : ℤ) : ZMod p)) fun A B => ?_, fun A j => rfl⟩
  funext j
  obtain ⟨u, hu, hul, -⟩ := hm.1 (red A)
  obtain ⟨v, hv, hvl, -⟩ := hm.1 (red B)
  obtain ⟨w, hw, hwl, -⟩ := hm.1 (red A + red B)
  have h := hm.2 _ _ _ _ _ hu hv hw
  simp only [map_add, hu, hv, hw, Option.getD_some, Pi.add_apply]
  rw [List.getD_eq_getElem _ _ (by rw [hwl]; exact j.2), List.getD_eq_getElem _ _ (by rw [hul]; exact j.2),
    List.getD_eq_getElem _ _ (by rw [hvl]; exact j.2), List.getElem_of_eq h (by rw [hwl]; exact j.2), List.getElem_zipWith,
    ZMod.intCast_mod, Int.cast_add]

/-- **C104**, test_saturation: if it returns 1 then the points are p-saturated -/
theorem C104_test (ok : e.Ok) (hp : p.Prime) {fuel ms : ℕ} {S S' : St G} (h : testSat e fuel p ms S = .ok (true, S')) :
    PSat p S'.Plist ∧ S'.Plist = S.Plist := by
  have : Fact p.Prime := ⟨hp⟩
  obtain ⟨h1, h2, -⟩ := testSat_spec ok h
  exact ⟨h2 rfl, h1⟩

theorem ext_psat {r m : ℕ} (hp : p.Prime) (hr : r.Prime) {L L' : List G} (h : Ext p m L L') (hs : PSat r L) : PSat r L' := by
  by_cases hne : r = p
  · subst hne
    intro R hR
    have h1 : ∀ m : ℕ, ∀ x, r ^ m • x ∈ sub L → x ∈ sub L := by
      intro m
      induction m with
      | zero => intro x hx; rwa [pow_zero, one_smul] at hx
      | succ m ih => intro x hx; rw [pow_succ', mul_smul] at hx; exact ih x (hs _ hx)
    exact h.le (hs R (h1 m _ (h.pow _ hR)))
  · exact h.psat hp hr hne hs

/-- **C104**, do_saturation(p): the new points generate, with the torsion, a subgroup which contains the one of the old points, the number
of points is the same, and points independent modulo torsion stay so; if the value returned is `m`, not -1, then the new points are
p-saturated and `p^m` is the index -/
theorem C104_do (ok : e.Ok) (hp : p.Prime) {fuel maxn : ℕ} {S S' : St G} {r : Option ℕ} (h : doSat e fuel p maxn S = .ok (r, S')) :
    S'.Plist.length = S.Plist.length ∧ sub S.Plist ≤ sub S'.Plist ∧ (Indep S.Plist → Indep S'.Plist) ∧
    ∀ m, r = some m → PSat p S'.Plist ∧ (Indep S.Plist → (sub S.Plist).relIndex (sub S'.Plist) = p ^ m) := by
  have : Fact p.Prime := ⟨hp⟩
  obtain ⟨⟨m, h1⟩, h2⟩ := doSat_spec ok h
  exact ⟨h1.len, h1.le, fun hi => (h1.ind hi).1, fun m hm => ⟨(h2 m hm).2, fun hi => ((h2 m hm).1.ind hi).2⟩⟩

theorem list_spec (ok : e.Ok) {fuel maxn : ℕ} : ∀ (ps : List ℕ) (_ : ∀ p ∈ ps, p.Prime) (unsat : List ℕ) (index : ℕ) (S : St G)
    (unsat' : List ℕ) (index' : ℕ) (S' : St G), doSatList e fuel maxn ps unsat index S = .ok (unsat', index', S') →
    S'.Plist.length = S.Plist.length ∧ sub S.Plist ≤ sub S'.Plist ∧ (∀ r, r.Prime → PSat r S.Plist → PSat r S'.Plist) ∧
    (∀ r ∈ unsat, r ∈ unsat') ∧ (∀ p ∈ ps, p ∉ unsat' → PSat p S'.Plist) ∧
    (Indep S.Plist → Indep S'.Plist ∧ ∃ k, index' = index * k ∧ k ∣ (sub S.Plist).relIndex (sub S'.Plist) ∧
      (unsat' = [] → (sub S.Plist).relIndex (sub S'.Plist) = k)) := by
  intro ps
  induction ps with
  | nil =>
    intro _ unsat index S unsat' index' S' h
    rw [doSatList] at h
    cases h
    exact ⟨rfl, le_rfl, fun _ _ h => h, fun _ h => h, fun p hp => (by cases hp), fun hi => ⟨hi, 1, (mul_one _).symm, one_dvd _, fun _ =>
      AddSubgroup.relIndex_self _⟩⟩
  | cons p ps ih =>
    intro hps unsat index S unsat' index' S' h
    have hp := hps p List.mem_cons_self
    have hps' : ∀ q ∈ ps, q.Prime := fun q hq => hps q (List.mem_cons_of_mem _ hq)
    rw [doSatList] at h
    split at h
    · rename_i ht
      obtain ⟨h1, h2, h3, h4, h5, h6⟩ := ih hps' _ _ _ _ _ _ h
      refine ⟨h1, h2, h3, h4, fun q hq hu => ?_, h6⟩
      rcases List.mem_cons.mp hq with rfl | hq
      · exact h3 q hp (ok.triv _ _ ht)
      · exact h5 q hq hu
    · cases hd : doSat e fuel p maxn S with
      | error _ => rw [hd] at h; cases h
      | ok rs =>
        obtain ⟨r, S1⟩ := rs
        rw [hd] at h
        have : Fact p.Prime := ⟨hp⟩
        obtain ⟨⟨m0, d1⟩, d2⟩ := doSat_spec ok hd
        cases r with
        | none =>
          obtain ⟨h1, h2, h3, h4, h5, h6⟩ := ih hps' _ _ _ _ _ _ h
          have hpu : p ∈ unsat' := h4 p (List.mem_append_right _ List.mem_cons_self)
          refine ⟨h1.trans d1.len, d1.le.trans h2, fun r hr hs => h3 r hr (ext_psat hp hr d1 hs),
            fun r hr => h4 r (List.mem_append_left _ hr), fun q hq hu => ?_, fun hi => ?_⟩
          · rcases List.mem_cons.mp hq with rfl | hq
            · exact absurd hpu hu
            · exact h5 q hq hu
          · obtain ⟨i1, i2⟩ := d1.ind hi
            obtain ⟨i3, k, i4, i5, i6⟩ := h6 i1
            refine ⟨i3, k, i4, ?_, fun hn => ?_⟩
            · rw [← AddSubgroup.relIndex_mul_relIndex _ _ _ d1.le h2]
              exact Dvd.dvd.mul_left i5 _
            · rw [hn] at hpu; cases hpu
        | some m =>
          obtain ⟨h1, h2, h3, h4, h5, h6⟩ := ih hps' _ _ _ _ _ _ h
          obtain ⟨e1, e2⟩ := d2 m rfl
          refine ⟨h1.trans d1.len, d1.le.trans h2, fun r hr hs => h3 r hr (ext_psat hp hr d1 hs), h4, fun q hq hu => ?_, fun hi => ?_⟩
          · rcases List.mem_cons.mp hq with rfl | hq
            · exact h3 q hp e2
            · exact h5 q hq hu
          · obtain ⟨i1, i2⟩ := e1.ind hi
            obtain ⟨i3, k, i4, i5, i6⟩ := h6 i1
            have hmul := AddSubgroup.relIndex_mul_relIndex _ _ _ d1.le h2
            rw [i2] at hmul
            refine ⟨i3, p ^ m * k, by rw [i4, mul_assoc], ?_, fun hn => ?_⟩
            · rw [← hmul]; exact Nat.mul_dvd_mul_left _ i5
            · rw [← hmul, i6 hn]

/-- **C104**, do_saturation(plist): the new points generate a larger subgroup and are p-saturated at all primes of the list which are not
returned in `unsat`; if there are none then `index` is the index of the subgroups, else it divides it -/
theorem C104_list (ok : e.Ok) {fuel maxn : ℕ} {ps : List ℕ} (hps : ∀ p ∈ ps, p.Prime) {S S' : St G} {unsat : List ℕ} {index : ℕ}
    (h : doSatList e fuel maxn ps [] 1 S = .ok (unsat, index, S')) :
    S'.Plist.length = S.Plist.length ∧ sub S.Plist ≤ sub S'.Plist ∧ (∀ p ∈ ps, p ∉ unsat → PSat p S'.Plist) ∧
    (∀ r, r.Prime → PSat r S.Plist → PSat r S'.Plist) ∧
    (Indep S.Plist → Indep S'.Plist ∧ index ∣ (sub S.Plist).relIndex (sub S'.Plist) ∧
      (unsat = [] → (sub S.Plist).relIndex (sub S'.Plist) = index)) := by
  obtain ⟨h1, h2, h3, -, h5, h6⟩ := list_spec ok ps hps _ _ _ _ _ _ h
  refine ⟨h1, h2, h5, h3, fun hi => ?_⟩
  obtain ⟨i1, k, i2, i3, i4⟩ := h6 hi
  rw [one_mul] at i2
  rw [i2]
  exact ⟨i1, i3, i4⟩

theorem satPrimes_prime {egr : Bool} {tam : List ℕ} (ht : ∀ t ∈ tam, t.Prime) {ib : ℕ} {satbd : Option ℕ} {low p : ℕ}
    (h : p ∈ satPrimes egr tam ib satbd low) : p.Prime := by
  unfold satPrimes at h
  rcases List.mem_append.mp h with h | h
  · have := List.of_mem_filter h
    simp only [decide_eq_true_eq] at this
    exact this.1
  · split at h
    · exact ht p (List.mem_of_mem_filter h)
    · cases h

/-- **C104**, saturate without a bound: when the index bound is right (a prime at which the given points are not saturated is at most the
bound or, with the flag egr, a Tamagawa prime) and the value returned is 1 (`unsat` is empty), the new points are saturated: every point
with a multiple in the subgroup is in the subgroup, and `index` is the index -/
theorem C104_saturate (ok : e.Ok) {fuel maxn : ℕ} {egr : Bool} {tam : List ℕ} (htam : ∀ t ∈ tam, t.Prime) {ib : ℕ} {L : List G}
    (hib : ∀ r, r.Prime → ¬ PSat r L → r ≤ ib ∨ (egr = true ∧ r ∈ tam)) {S' : St G} {index : ℕ}
    (h : saturate e fuel maxn egr tam ib none 2 L = .ok ([], index, S')) :
    (∀ (n : ℕ) (R : G), n ≠ 0 → n • R ∈ sub S'.Plist → R ∈ sub S'.Plist) ∧ sub L ≤ sub S'.Plist ∧ S'.Plist.length = L.length ∧
    (Indep L → Indep S'.Plist ∧ (sub L).relIndex (sub S'.Plist) = index) := by
  obtain ⟨h1, h2, h3, h4, h5⟩ := C104_list ok (fun p hp => satPrimes_prime htam hp) h
  refine ⟨?_, h2, h1, fun hi => ⟨(h5 hi).1, (h5 hi).2.2 rfl⟩⟩
  have hall : ∀ r, r.Prime → PSat r S'.Plist := fun r hr => by
    by_cases hs : PSat r L
    · exact h4 r hr hs
    · refine h3 r ?_ (by simp)
      unfold satPrimes
      by_cases hle : r ≤ ib
      · refine List.mem_append_left _ (List.mem_filter.mpr ⟨List.mem_range.mpr (by simpa using Nat.lt_succ_of_le hle), ?_⟩)
        simp only [decide_eq_true_eq]
        exact ⟨hr, hr.two_le⟩
      · obtain ⟨he, ht⟩ := (hib r hr hs).resolve_left hle
        refine List.mem_append_right _ ?_
        rw [if_pos he]
        refine List.mem_filter.mpr ⟨ht, ?_⟩
        simp only [decide_eq_true_eq]
        exact ⟨by omega, Or.inl trivial⟩
  intro n
  induction n using Nat.strong_induction_on with
  | _ n ih =>
    intro R hn hR
    by_cases h1 : n = 1
    · rwa [h1, one_smul] at hR
    · obtain ⟨q, hq, hd⟩ := Nat.exists_prime_and_dvd h1
      obtain ⟨k, rfl⟩ := hd
      have hk : k ≠ 0 := by rintro rfl; exact hn rfl
      rw [mul_smul] at hR
      refine ih k ?_ R hk (hall q hq _ hR)
      have := hq.two_le
      nlinarith [Nat.pos_of_ne_zero hk]

/-! ### the access outside the vector -/

theorem enlarge_noub [hpf : Fact p.Prime] (ok : e.Ok) (hT : e.cotors p = [] ∨ p ≤ 3) {S : St G} (hI : Inv (p := p) e S) :
    enlarge e p S ≠ .error .ub := by
  unfold enlarge
  split
  · intro h; cases h
  rename_i hr
  simp only
  split
  · intro h; cases h
  rename_i htors
  split
  · intro h; cases h
  obtain ⟨⟨j, hj, hcj⟩, hsym, -⟩ := coef_spec hI hr
  cases hk : keepi e p S with
  | none =>
    exfalso
    unfold keepi at hk
    rw [List.find?_eq_none] at hk
    have := hk j (List.mem_range.mpr hj)
    rw [hcj] at this
    exact this (by decide)
  | some k =>
    simp only
    obtain ⟨h1, h2, h3⟩ := keepi_spec hk
    rw [if_pos]
    · intro h; cases h
    have hlen : S.rank = S.Plist.length + (e.cotors p).length := by rw [St.rank, hI.x, List.length_append]
    rcases hT with hT | hT
    · rw [hlen, hT] at h1; simpa using h1
    · by_contra hk'
      -- all coefficients at the given points are 0, so Q is torsion
      apply htors
      rw [ok.isTors, combQ_eq, hI.x, comb_append]
      refine AddSubgroup.add_mem _ ?_ (comb_mem (ok.cotors p hpf.out).1)
      have : comb (coef e p S) S.Plist = 0 := by
        refine Finset.sum_eq_zero fun i hi => ?_
        have hi' := Finset.mem_range.mp hi
        have h4 := h3 i (by omega)
        have h5 := hsym i
        have h6 : (p : ℤ) ≤ 3 := by exact_mod_cast hT
        have : coef e p S i = 0 := by
          by_contra hne
          have : coef e p S i = 1 ∨ coef e p S i = -1 := by omega
          rcases this with h | h <;> rw [h] at h4 <;> exact h4 (by decide)
        rw [this, zero_smul]
      rw [this]
      exact AddSubgroup.zero_mem _

theorem sieveLoop_noub (ms : ℕ) : ∀ (f : ℕ) (S : St G), sieveLoop e p ms f S ≠ .error .ub := by
  intro f
  induction f with
  | zero => intro S h; rw [sieveLoop] at h; split at h <;> cases h
  | succ f ih => intro S h; rw [sieveLoop] at h; split at h; exact ih _ h; cases h

theorem testExtra_noub {fuel ms : ℕ} {S : St G} : testExtra e fuel p ms S ≠ .error .ub := by
  intro h
  unfold testExtra at h
  cases hl : sieveLoop e p ms fuel { S with stuck := 0 } with
  | error x => rw [hl] at h; cases h; exact sieveLoop_noub _ _ _ hl
  | ok S1 => rw [hl] at h; cases h

theorem doLoop_noub [hpf : Fact p.Prime] (ok : e.Ok) (hT : e.cotors p = [] ∨ p ≤ 3) {maxn : ℕ} : ∀ (f n : ℕ) (S : St G),
    Inv (p := p) e S → doLoop e p maxn f n S ≠ .error .ub := by
  intro f
  induction f with
  | zero => intro n S _ h; cases h
  | succ f ih =>
    intro n S hI h
    rw [doLoop] at h
    cases he : enlarge e p S with
    | error x => rw [he] at h; cases h; exact enlarge_noub ok hT hI he
    | ok bs =>
      obtain ⟨b, S1⟩ := bs
      rw [he] at h
      obtain ⟨e1, e2⟩ := enlarge_spec ok hI he
      have h1 : Inv (p := p) e S1 := by
        cases b with
        | false => rw [e1 rfl]; exact hI
        | true => exact (e2 rfl).1
      simp only at h
      generalize hn' : (if b = true then 0 else n + 1) = n' at h
      split at h
      · cases h
      · cases ht : testExtra e f p maxn S1 with
        | error x => rw [ht] at h; cases h; exact testExtra_noub ht
        | ok bs =>
          obtain ⟨b2, S2⟩ := bs
          rw [ht] at h
          simp only at h
          split at h
          · cases h
          · exact ih _ _ (testExtra_spec ok h1 ht).1 h

/-- **C104**: `Plist[keepi]` is inside the vector when the p-cotorsion is trivial, and for `p = 2` and `p = 3` -/
theorem C104_index_partial (ok : e.Ok) (hp : p.Prime) (hT : e.cotors p = [] ∨ p ≤ 3) (fuel maxn : ℕ) (S : St G) :
    doSat e fuel p maxn S ≠ .error .ub := by
  have : Fact p.Prime := ⟨hp⟩
  intro h
  unfold doSat at h
  split at h
  · cases h
  · cases ht : testSat e fuel p maxn S with
    | error x =>
      rw [ht] at h
      cases h
      unfold testSat at ht
      split at ht
      · cases ht
      · simp only at ht
        generalize hS : ({ S with Plistx := S.Plist ++ e.cotors p, TLimage := ⟨(S.Plist ++ e.cotors p).length, []⟩, TLrank := 0, k := 0, stuck := 0, logIndex := 0 } : St G) = T at ht
        cases hl : sieveLoop e p maxn fuel T with
        | error x => rw [hl] at ht; cases ht; exact sieveLoop_noub _ _ _ hl
        | ok S1 => rw [hl] at ht; cases ht
    | ok bs =>
      obtain ⟨b, S1⟩ := bs
      rw [ht] at h
      obtain ⟨-, -, t3⟩ := testSat_spec ok ht
      simp only [Except.bind, bind] at h
      split at h
      · cases h
      · rename_i hb
        exact doLoop_noub ok hT _ _ _ (t3 (by simpa using hb)).1 h

/-! ### termination -/

theorem testExtra_ends [hpf : Fact p.Prime] (ok : e.Ok) {fuel ms : ℕ} {S : St G} (hI : Inv (p := p) e S)
    (hf : S.rank * (ms + 1) + ms ≤ fuel) : ∃ b S', testExtra e fuel p ms S = .ok (b, S') := by
  unfold testExtra
  have hI' : Inv (p := p) e { S with stuck := 0 } := ⟨hI.x, hI.nc, hI.rect, hI.rk, hI.rel⟩
  obtain ⟨S', h⟩ := sieveLoop_ends ok ms fuel _ hI' (by
    have : (S.rank - S.TLrank) * (ms + 1) ≤ S.rank * (ms + 1) := Nat.mul_le_mul_right _ (Nat.sub_le _ _)
    change (S.rank - S.TLrank) * (ms + 1) + (ms - 0) ≤ fuel
    omega)
  rw [h]
  exact ⟨_, _, rfl⟩

theorem doLoop_ends [hpf : Fact p.Prime] (ok : e.Ok) {maxn B r : ℕ} {L : List G} (hB : ∀ m L', Ext p m L L' → m ≤ B) :
    ∀ (f n : ℕ) (S : St G), Inv (p := p) e S → Ext p S.logIndex L S.Plist → S.rank = r → n < maxn →
    (B - S.logIndex) * (maxn + 1) + (maxn - n) + (r * (maxn + 1) + maxn) ≤ f → doLoop e p maxn f n S ≠ .error .fuel := by
  intro f
  induction f with
  | zero => intro n S _ _ _ hn hf; omega
  | succ f ih =>
    intro n S hI hE hrk hn hf h
    rw [doLoop] at h
    cases he : enlarge e p S with
    | error x =>
      rw [he] at h
      cases h
      unfold enlarge at he
      simp only at he
      split at he
      · cases he
      split at he
      · cases he
      split at he
      · cases he
      split at he
      · cases he
      split at he <;> cases he
    | ok bs =>
      obtain ⟨b, S1⟩ := bs
      rw [he] at h
      obtain ⟨e1, e2⟩ := enlarge_spec ok hI he
      have h1 : Inv (p := p) e S1 ∧ Ext p S1.logIndex L S1.Plist := by
        cases b with
        | false => rw [e1 rfl]; exact ⟨hI, hE⟩
        | true =>
          obtain ⟨i1, i2, i3⟩ := e2 rfl
          exact ⟨i1, by rw [i2]; exact hE.trans i3⟩
      have hrk1 : S1.rank = r := by
        rw [← hrk, St.rank, St.rank, h1.1.x, hI.x, List.length_append, List.length_append, h1.2.len, hE.len]
      simp only at h
      generalize hn' : (if b = true then 0 else n + 1) = n' at h
      split at h
      · cases h
      · rename_i hstop
        obtain ⟨b2, S2, ht⟩ := testExtra_ends ok h1.1 (fuel := f) (ms := maxn) (by rw [hrk1]; omega)
        rw [ht] at h
        obtain ⟨t1, t2, t3, -⟩ := testExtra_spec ok h1.1 ht
        simp only at h
        split at h
        · cases h
        · refine ih _ _ t1 (by rw [t2, t3]; exact h1.2) ?_ ?_ ?_ h
          · rw [St.rank, t1.x, t2, ← h1.1.x]; exact hrk1
          · cases b with
            | false =>
              simp only [Bool.false_eq_true, if_false] at hn'
              have : n' ≠ maxn := fun h => hstop ⟨rfl, h⟩
              omega
            | true => simp only [if_true] at hn'; omega
          · rw [t3]
            cases b with
            | false =>
              simp only [Bool.false_eq_true, if_false] at hn'
              rw [e1 rfl]
              have : n' ≠ maxn := fun h => hstop ⟨rfl, h⟩
              omega
            | true =>
              simp only [if_true] at hn'
              have hb := hB _ _ h1.2
              have h3 := (e2 rfl).2.1
              have h4 : B - S1.logIndex + 1 ≤ B - S.logIndex := by omega
              have h5 := Nat.mul_le_mul_right (maxn + 1) h4
              rw [Nat.add_mul, one_mul] at h5
              omega

/-- **C104**: do_saturation(p) comes to an end for `maxntries > 0`, when the points are independent and of finite index in the group of all
points with a multiple in their subgroup -/
theorem C104_ends (ok : e.Ok) (hp : p.Prime) {maxn : ℕ} (hm : 0 < maxn) {S : St G} (hi : Indep S.Plist) {K : AddSubgroup G}
    (hK : ∀ (n : ℕ) (x : G), n ≠ 0 → n • x ∈ sub S.Plist → x ∈ K) (hfin : (sub S.Plist).relIndex K ≠ 0) :
    ∃ N, ∀ fuel, N ≤ fuel → doSat e fuel p maxn S ≠ .error .fuel := by
  have : Fact p.Prime := ⟨hp⟩
  have hB : ∀ m L', Ext p m S.Plist L' → m ≤ (sub S.Plist).relIndex K := fun m L' h => by
    have hle : sub L' ≤ K := fun x hx => hK _ x (pow_ne_zero m hp.ne_zero) (h.pow x hx)
    have h1 := AddSubgroup.relIndex_mul_relIndex _ _ _ h.le hle
    rw [(h.ind hi).2] at h1
    have h2 : p ^ m ≤ (sub S.Plist).relIndex K := Nat.le_of_dvd (Nat.pos_of_ne_zero hfin) ⟨_, h1.symm⟩
    exact (Nat.lt_pow_self hp.one_lt).le.trans h2
  set B := (sub S.Plist).relIndex K
  set r := (S.Plist ++ e.cotors p).length with hr
  refine ⟨B * (maxn + 1) + maxn + (r * (maxn + 1) + maxn), fun fuel hf h => ?_⟩
  unfold doSat at h
  split at h
  · cases h
  · cases ht : testSat e fuel p maxn S with
    | error x =>
      unfold testSat at ht
      split at ht
      · cases ht
      · simp only at ht
        generalize hT : ({ S with Plistx := S.Plist ++ e.cotors p, TLimage := ⟨(S.Plist ++ e.cotors p).length, []⟩, TLrank := 0, k := 0, stuck := 0, logIndex := 0 } : St G) = T at ht
        have hI : Inv (p := p) e T := by rw [← hT]; exact init_inv _ rfl rfl rfl
        obtain ⟨S1, hS1⟩ := sieveLoop_ends ok maxn fuel T hI (by
          have hTr : T.rank = r := by rw [← hT]; rfl
          have h1 : (T.rank - T.TLrank) * (maxn + 1) ≤ T.rank * (maxn + 1) := Nat.mul_le_mul_right _ (Nat.sub_le _ _)
          rw [hTr] at h1 ⊢
          omega)
        rw [hS1] at ht
        cases ht
    | ok bs =>
      obtain ⟨b, S1⟩ := bs
      rw [ht] at h
      obtain ⟨t1, -, t3⟩ := testSat_spec ok ht
      simp only [Except.bind, bind] at h
      split at h
      · cases h
      · rename_i hb
        obtain ⟨i1, i2⟩ := t3 (by simpa using hb)
        refine doLoop_ends ok hB _ _ _ i1 (by rw [i2, t1]; exact Ext.refl _) (r := r) ?_ hm ?_ h
        · rw [St.rank, i1.x, t1]
        · rw [i2]; omega

/-! ### the witness -/

/-- a group like E(Q) of rank 1 with 5-torsion -/
abbrev G5 := ℤ × ZMod 5

/-- the maps to `Z/5`: every homomorphism of `G5` to `Z/5` is a multiple of a combination of the first component modulo 5 and the second
one; on multiples of 5 in the first component the second one is all that counts -/
def e5 : Env G5 where
  maps p k := if p = 5 then (1, fun A => [if k % 2 = 0 then ((A.2).val : ℤ) else (A.1 + (A.2).val) % 5]) else (0, fun _ => [])
  isTors Q := Q.1 = 0
  divPts p Q := if p = 5 ∧ Q.2 = 0 ∧ Q.1 % 5 = 0 then [(Q.1 / 5, 0)] else []
  cotors p := if p = 5 then [(0, 1)] else []
  triv _ _ := false
  X := Marith.Props.xgcd0

theorem mem_tors5 (Q : G5) : Q ∈ AddCommGroup.torsion G5 ↔ Q.1 = 0 := by
  constructor
  · intro h
    obtain ⟨n, hn, h2⟩ := (isOfFinAddOrder_iff_nsmul_eq_zero (x := Q)).mp h
    have := congrArg Prod.fst h2
    change n • Q.1 = 0 at this
    rw [nsmul_eq_mul, mul_eq_zero] at this
    rcases this with h3 | h3
    · have : n = 0 := by exact_mod_cast h3
      omega
    · exact h3
  · intro h
    refine (isOfFinAddOrder_iff_nsmul_eq_zero (x := Q)).mpr ⟨5, by norm_num, ?_⟩
    ext1
    · simp [h]
    · change 5 • Q.2 = 0
      rw [nsmul_eq_mul]
      have : ((5 : ℕ) : ZMod 5) = 0 := by decide
      rw [this, zero_mul]

theorem e5_ok : e5.Ok := by
  refine ⟨fun p k _ => ?_, fun Q => ?_, fun p Q R h => ?_, fun p hp => ?_, fun L p h => (by cases h)⟩
  · unfold e5
    simp only
    by_cases h5 : p = 5
    · subst h5
      rw [if_pos rfl]
      by_cases hk : k % 2 = 0
      · refine ⟨AddMonoidHom.mk' (fun A _ => A.2) fun A B => rfl, fun A j => ?_⟩
        simp [hk]
      · refine ⟨AddMonoidHom.mk' (fun A _ => (A.1 : ZMod 5) + A.2) fun A B => ?_, fun A j => ?_⟩
        · funext j
          simp only [Prod.fst_add, Prod.snd_add, Int.cast_add, Pi.add_apply]
          ring
        · have : j = 0 := Subsingleton.elim _ _
          subst this
          simp only [hk, if_false]
          change (((A.1 + (A.2).val) % 5 : ℤ) : ZMod 5) = (A.1 : ZMod 5) + A.2
          rw [show (5 : ℤ) = ((5 : ℕ) : ℤ) from rfl, ZMod.intCast_mod]
          simp
    · rw [if_neg h5]
      exact ⟨0, fun A j => j.elim0⟩
  · rw [mem_tors5]
    unfold e5
    simp
  · unfold e5 at h
    simp only at h
    split at h
    · rename_i hc
      obtain ⟨rfl, h2, h3⟩ := hc
      rw [List.mem_singleton] at h
      subst h
      ext1
      · change 5 • (Q.1 / 5) = Q.1
        rw [nsmul_eq_mul]; push_cast; omega
      · change 5 • (0 : ZMod 5) = Q.2
        rw [smul_zero, h2]
    · cases h
  · unfold e5
    simp only
    by_cases h5 : p = 5
    · subst h5
      rw [if_pos rfl]
      refine ⟨fun t ht => ?_, fun t ht => ⟨fun _ => (t.2).val, 0, AddSubgroup.zero_mem _, ?_⟩⟩
      · rw [List.mem_singleton] at ht
        rw [ht, mem_tors5]
      · have h1 := (mem_tors5 t).mp ht
        unfold comb
        ext1
        · simp [h1]
        · simp
    · rw [if_neg h5]
      refine ⟨fun t ht => (by cases ht), fun t ht => ?_⟩
      have hu : IsUnit ((p : ℕ) : ZMod 5) := by
        rw [ZMod.isUnit_iff_coprime]
        exact (Nat.coprime_primes hp (by norm_num)).mpr h5
      obtain ⟨u, hu⟩ := hu
      refine ⟨fun _ => 0, (0, ↑u⁻¹ * t.2), (mem_tors5 _).mpr rfl, ?_⟩
      have h1 := (mem_tors5 t).mp ht
      unfold comb
      ext1
      · simp [h1]
      · rw [List.length_nil, Finset.range_zero, Finset.sum_empty, zero_add]
        change t.2 = p • (↑u⁻¹ * t.2)
        rw [nsmul_eq_mul, ← hu, ← mul_assoc, Units.mul_inv, one_mul]

/-- the initial state -/
def start (L : List G) : St G := ⟨L, L, ⟨0, []⟩, 0, 0, 0, 0⟩

/-- C104: that `keepi` is less than the size of `Plist` fails: in the group `Z × Z/5` with the point `P = (5,2)` and the torsion point
`T = (0,1)` the kernel vector is `(2,1)`, `2P + T = 5(2,0)`, and as 2 is not 1 or -1 the position kept is that of `T`: `Plist[1]=newQ`
writes outside of the vector `Plist`, which has one element -/
theorem C104_outside : e5.Ok ∧ Indep [((5, 2) : G5)] ∧ doSat e5 60 5 10 (start [((5, 2) : G5)]) = .error .ub := by
  refine ⟨e5_ok, fun n hn i hi => ?_, ?_⟩
  · rw [mem_tors5] at hn
    unfold comb at hn
    simp at hn hi
    subst hi
    exact hn
  · have h : ∀ x : Except Err (Option ℕ × St G5), (match x with | .error .ub => true | _ => false) = true → x = .error .ub := by
      rintro (_ | _) h
      · rename_i y; cases y
        · rfl
        · cases h
      · cases h
    apply h
    decide +kernel

/-- the same group with the point `P = (5,1)`: the point is replaced, and the result is saturated: the
hypotheses of C104 can be met with index 5 -/
example : (doSat e5 60 5 10 (start [((5, 1) : G5)])).toOption.map (fun x => (x.1, x.2.Plist)) = some (some 1, [((-1, 0) : G5)]) := by
  decide +kernel

/-! ## C105: pCoTorsion -/

section cotorsion

variable [DecidableEq G]

theorem maxLoop_spec (ord : G → ℕ) (n : ℕ) : ∀ (l : List G) (Q : G) (m : ℕ), (0 < m → ord Q = m) →
    (0 < (maxLoop ord n l Q m).2 → ord (maxLoop ord n l Q m).1 = (maxLoop ord n l Q m).2) ∧
    ((maxLoop ord n l Q m).1 = Q ∨ (maxLoop ord n l Q m).1 ∈ l) ∧ m ≤ (maxLoop ord n l Q m).2 ∧
    (n ≤ (maxLoop ord n l Q m).2 ∨ ∀ P ∈ l, ord P ≤ (maxLoop ord n l Q m).2) := by
  intro l
  induction l with
  | nil => intro Q m h; exact ⟨h, Or.inl rfl, le_rfl, Or.inr fun P hP => (by cases hP)⟩
  | cons P l ih =>
    intro Q m h
    rw [maxLoop]
    by_cases hm : m < n
    · rw [if_pos hm]
      by_cases ho : ord P > m
      · rw [if_pos ho]
        obtain ⟨h1, h2, h3, h4⟩ := ih P (ord P) fun _ => rfl
        refine ⟨h1, Or.inr ?_, by omega, h4.imp_right fun h5 R hR => ?_⟩
        · rcases h2 with h2 | h2
          · rw [h2]; exact List.mem_cons_self
          · exact List.mem_cons_of_mem _ h2
        · rcases List.mem_cons.mp hR with rfl | hR
          · exact h3
          · exact h5 R hR
      · rw [if_neg ho]
        obtain ⟨h1, h2, h3, h4⟩ := ih Q m h
        refine ⟨h1, h2.imp_right (List.mem_cons_of_mem _), h3, h4.imp_right fun h5 R hR => ?_⟩
        rcases List.mem_cons.mp hR with rfl | hR
        · omega
        · exact h5 R hR
    · rw [if_neg hm]
      exact ⟨h, Or.inl rfl, le_rfl, Or.inl (by simpa using hm)⟩

/-- **C105.** `pCoTorsion(AllTorsion,p)` for a prime `p`: when the list has all torsion points, once each, and the torsion group is cyclic or
has two different points of order 2 and a cyclic subgroup of index 2 (so it is for E(Q)), the points returned generate the torsion group
modulo its multiples of `p` -/
theorem C105_cotorsion {p : ℕ} (hp : p.Prime) {T : List G} (hnd : T.Nodup) (hT : ∀ t, t ∈ T ↔ t ∈ AddCommGroup.torsion G)
    (hstr : (∃ g ∈ T, addOrderOf g = T.length) ∨ ((∃ g ∈ T, 2 * addOrderOf g = T.length) ∧
      ∃ h ∈ T, ∃ h' ∈ T, h ≠ h' ∧ addOrderOf h = 2 ∧ addOrderOf h' = 2)) :
    (∀ t ∈ pCoTorsion addOrderOf T p, t ∈ AddCommGroup.torsion G) ∧
    ∀ t ∈ AddCommGroup.torsion G, ∃ n, ∃ t' ∈ AddCommGroup.torsion G, t = comb n (pCoTorsion addOrderOf T p) + p • t' := by
  have hcard : Nat.card (AddCommGroup.torsion G) = T.length := by
    have e : {x // x ∈ T.toFinset} ≃ AddCommGroup.torsion G :=
      Equiv.subtypeEquivRight fun x => List.mem_toFinset.trans (hT x)
    rw [← Nat.card_congr e, Nat.card_eq_fintype_card, Fintype.card_coe, List.toFinset_card_of_nodup hnd]
  have hfin : Finite (AddCommGroup.torsion G) := by
    have e : {x // x ∈ T} ≃ AddCommGroup.torsion G := Equiv.subtypeEquivRight hT
    exact Finite.of_equiv _ e
  have h0 : (0 : G) ∈ T := (hT 0).mpr (AddSubgroup.zero_mem _)
  have hpos : 0 < T.length := List.length_pos_of_mem h0
  have hkill : ∀ t ∈ AddCommGroup.torsion G, T.length • t = 0 := fun t ht => by
    have := card_nsmul_eq_zero' (x := (⟨t, ht⟩ : AddCommGroup.torsion G))
    rw [hcard] at this
    exact congrArg Subtype.val this
  have one : ∀ (Q : G) (a : ℤ), comb (fun _ => a) [Q] = a • Q := fun Q a => by
    unfold comb; simp
  have two : ∀ (Q P : G) (a b : ℤ), comb (fun i => if i = 0 then a else b) [Q, P] = a • Q + b • P := fun Q P a b => by
    unfold comb; rw [List.length_cons, List.length_singleton, Finset.sum_range_succ, Finset.sum_range_one]; simp
  unfold pCoTorsion
  by_cases hdiv : T.length % p ≠ 0
  · rw [if_pos hdiv]
    refine ⟨fun t ht => (by cases ht), fun t ht => ?_⟩
    have hcop : Nat.Coprime p T.length := (Nat.Prime.coprime_iff_not_dvd hp).mpr fun h => hdiv (Nat.mod_eq_zero_of_dvd h)
    have hb := Nat.gcd_eq_gcd_ab p T.length
    rw [hcop] at hb
    refine ⟨fun _ => 0, Nat.gcdA p T.length • t, AddSubgroup.zsmul_mem _ ht _, ?_⟩
    have : t = ((p * Nat.gcdA p T.length + T.length * Nat.gcdB p T.length : ℤ)) • t := by rw [← hb]; simp
    unfold comb
    rw [List.length_nil, Finset.range_zero, Finset.sum_empty, zero_add]
    conv_lhs => rw [this]
    rw [add_smul, mul_comm (T.length : ℤ), mul_smul, mul_smul, natCast_zsmul, natCast_zsmul, hkill t ht, smul_zero, add_zero]
  rw [if_neg hdiv]
  push Not at hdiv
  obtain ⟨m1, m2, -, m4⟩ := maxLoop_spec addOrderOf T.length T 0 0 fun h => absurd h (lt_irrefl 0)
  generalize hQm : maxLoop addOrderOf T.length T 0 0 = Qm at m1 m2 m4
  obtain ⟨Q, m⟩ := Qm
  simp only at m1 m2 m4 ⊢
  have hQT : Q ∈ AddCommGroup.torsion G := by
    rcases m2 with h | h
    · rw [h]; exact AddSubgroup.zero_mem _
    · exact (hT Q).mp h
  have hle : ∀ P ∈ T, addOrderOf P ≤ T.length := fun P hP =>
    addOrderOf_le_of_nsmul_eq_zero hpos (hkill P ((hT P).mp hP))
  have hmax : ∀ P ∈ T, addOrderOf P ≤ m := fun P hP => m4.elim (fun h => (hle P hP).trans h) fun h => h P hP
  have hmpos : 0 < m := by
    have := hmax 0 h0
    rw [addOrderOf_zero] at this
    exact this
  have hordQ : addOrderOf Q = m := m1 hmpos
  have hQcard : Nat.card (AddSubgroup.zmultiples Q) = m := by rw [Nat.card_zmultiples, hordQ]
  have hQle : AddSubgroup.zmultiples Q ≤ AddCommGroup.torsion G := (AddSubgroup.zmultiples_le).mpr hQT
  by_cases hc : m = T.length
  · rw [if_pos (Or.inl hc)]
    refine ⟨fun t ht => by rw [List.mem_singleton.mp ht]; exact hQT, fun t ht => ?_⟩
    have heq : AddSubgroup.zmultiples Q = AddCommGroup.torsion G :=
      AddSubgroup.eq_of_le_of_card_ge hQle (by rw [hQcard, hcard, hc])
    rw [← heq, AddSubgroup.mem_zmultiples_iff] at ht
    obtain ⟨a, rfl⟩ := ht
    exact ⟨fun _ => a, 0, AddSubgroup.zero_mem _, by rw [one, smul_zero, add_zero]⟩
  · -- the subgroup generated by Q has index 2
    obtain ⟨⟨g, hg, hg2⟩, h, hh, h', hh', hne, ho, ho'⟩ := hstr.resolve_left fun ⟨g, hg, hg2⟩ => hc (by
      have h1 := hmax g hg
      have h2 : m ≤ T.length := by rw [← hordQ]; exact addOrderOf_le_of_nsmul_eq_zero hpos (hkill Q hQT)
      omega)
    have hmd : m ∣ T.length := by rw [← hordQ]; exact addOrderOf_dvd_of_nsmul_eq_zero (hkill Q hQT)
    have h2m : 2 * m = T.length := by
      obtain ⟨k, hk⟩ := hmd
      have h1 := hmax g hg
      have hk2 : k ≤ 2 := by
        by_contra hk3
        have : m * 3 ≤ m * k := Nat.mul_le_mul_left _ (by omega)
        omega
      have : k ≠ 0 := by rintro rfl; omega
      have : k ≠ 1 := by rintro rfl; omega
      have : k = 2 := by omega
      rw [hk, this, mul_comm]
    have hidx : (AddSubgroup.zmultiples Q).relIndex (AddCommGroup.torsion G) = 2 := by
      have := AddSubgroup.card_mul_index ((AddSubgroup.zmultiples Q).addSubgroupOf (AddCommGroup.torsion G))
      rw [hcard, Nat.card_congr (AddSubgroup.addSubgroupOfEquivOfLe hQle).toEquiv, hQcard, ← h2m, mul_comm] at this
      exact Nat.eq_of_mul_eq_mul_right hmpos this
    have hdouble : ∀ t ∈ AddCommGroup.torsion G, 2 • t ∈ AddSubgroup.zmultiples Q := fun t ht => by
      have := AddSubgroup.nsmul_index_mem ((AddSubgroup.zmultiples Q).addSubgroupOf (AddCommGroup.torsion G)) ⟨t, ht⟩
      change (AddSubgroup.zmultiples Q).relIndex (AddCommGroup.torsion G) • (⟨t, ht⟩ : AddCommGroup.torsion G) ∈ _ at this
      rw [hidx] at this
      exact AddSubgroup.mem_addSubgroupOf.mp this
    by_cases hp2 : p > 2
    · rw [if_pos (Or.inr hp2)]
      refine ⟨fun t ht => by rw [List.mem_singleton.mp ht]; exact hQT, fun t ht => ?_⟩
      obtain ⟨a, ha⟩ := AddSubgroup.mem_zmultiples_iff.mp (hdouble t ht)
      obtain ⟨k, hk⟩ := hp.odd_of_ne_two (by omega)
      refine ⟨fun _ => (k + 1 : ℤ) * a, -t, AddSubgroup.neg_mem _ ht, ?_⟩
      rw [one, mul_smul, ha, smul_neg, hk, ← natCast_zsmul, ← natCast_zsmul, smul_smul, ← sub_eq_add_neg, ← sub_smul]
      have : ((k + 1 : ℤ) * ((2 : ℕ) : ℤ) - ((2 * k + 1 : ℕ) : ℤ)) = 1 := by push_cast; ring
      rw [this, one_smul]
    · rw [if_neg (by push Not; exact ⟨hc, by omega⟩)]
      have hp2' : p = 2 := le_antisymm (by omega) hp.two_le
      cases hf : T.find? (fun P => addOrderOf P = 2 ∧ (m / 2) • Q ≠ P) with
      | none =>
        exfalso
        rw [List.find?_eq_none] at hf
        have h1 := hf h hh
        have h2 := hf h' hh'
        simp only [ho, ho', true_and, decide_eq_true_eq, not_not] at h1 h2
        exact hne (h1.symm.trans h2)
      | some P =>
        simp only
        have hP := List.find?_some hf
        simp only [decide_eq_true_eq] at hP
        have hPT : P ∈ AddCommGroup.torsion G := (hT P).mp (List.mem_of_find?_eq_some hf)
        have hPQ : P ∉ AddSubgroup.zmultiples Q := fun hmem => by
          obtain ⟨a, ha⟩ := AddSubgroup.mem_zmultiples_iff.mp hmem
          have hP2 : 2 • P = 0 := by rw [← hP.1]; exact addOrderOf_nsmul_eq_zero P
          have hP0 : P ≠ 0 := fun h => by
            have := hP.1
            rw [h, addOrderOf_zero] at this
            omega
          have h2a : (m : ℤ) ∣ 2 * a := by
            rw [← hordQ, addOrderOf_dvd_iff_zsmul_eq_zero, mul_smul, ha]
            exact_mod_cast hP2
          have hna : ¬ (m : ℤ) ∣ a := fun hd => by
            rw [← hordQ, addOrderOf_dvd_iff_zsmul_eq_zero, ha] at hd
            exact hP0 hd
          obtain ⟨k, hk⟩ := h2a
          have hkodd : k % 2 = 1 := by
            by_contra hke
            exact hna ⟨k / 2, by
              have : k = 2 * (k / 2) := by omega
              rw [this] at hk
              have h3 : 2 * a = 2 * (m * (k / 2)) := by rw [hk]; ring
              omega⟩
          have hmeven : m % 2 = 0 := by
            have h3 : ((m : ℤ) * k) % 2 = 0 := by omega
            rw [Int.mul_emod, hkodd] at h3
            omega
          have ha2 : a = ((m / 2 : ℕ) : ℤ) * k := by
            have h3 : (m : ℤ) = 2 * ((m / 2 : ℕ) : ℤ) := by omega
            rw [h3, mul_assoc] at hk
            omega
          apply hP.2
          have hmm : (2 : ℤ) • ((m / 2) • Q) = 0 := by
            rw [← natCast_zsmul, smul_smul]
            have h3 : (2 : ℤ) * ((m / 2 : ℕ) : ℤ) = ((m : ℕ) : ℤ) := by omega
            rw [h3, natCast_zsmul, ← hordQ, addOrderOf_nsmul_eq_zero]
          rw [← ha, ha2, mul_comm, mul_smul, natCast_zsmul]
          have hk1 : k = (k / 2) * 2 + 1 := by omega
          rw [hk1, add_smul, mul_smul, hmm, smul_zero, zero_add, one_smul]
        refine ⟨fun t ht => ?_, fun t ht => ?_⟩
        · simp only [List.mem_cons, List.not_mem_nil, or_false] at ht
          rcases ht with rfl | rfl
          · exact hQT
          · exact hPT
        · have hsup : AddSubgroup.zmultiples Q ⊔ AddSubgroup.zmultiples P = AddCommGroup.torsion G := by
            have hle2 : AddSubgroup.zmultiples Q ⊔ AddSubgroup.zmultiples P ≤ AddCommGroup.torsion G :=
              sup_le hQle ((AddSubgroup.zmultiples_le).mpr hPT)
            have hmul := AddSubgroup.relIndex_mul_relIndex _ _ _
              (le_sup_left : AddSubgroup.zmultiples Q ≤ AddSubgroup.zmultiples Q ⊔ AddSubgroup.zmultiples P) hle2
            rw [hidx] at hmul
            have hd : (AddSubgroup.zmultiples Q).relIndex (AddSubgroup.zmultiples Q ⊔ AddSubgroup.zmultiples P) ∣ 2 := ⟨_, hmul.symm⟩
            rcases (Nat.dvd_prime Nat.prime_two).mp hd with h1 | h1
            · rw [AddSubgroup.relIndex_eq_one] at h1
              exact absurd (h1 ((le_sup_right : AddSubgroup.zmultiples P ≤ _) (AddSubgroup.mem_zmultiples P))) hPQ
            · rw [h1] at hmul
              have : (AddSubgroup.zmultiples Q ⊔ AddSubgroup.zmultiples P).relIndex (AddCommGroup.torsion G) = 1 := by omega
              exact le_antisymm hle2 (AddSubgroup.relIndex_eq_one.mp this)
          rw [← hsup, AddSubgroup.mem_sup] at ht
          obtain ⟨x, hx, y, hy, rfl⟩ := ht
          obtain ⟨a, rfl⟩ := AddSubgroup.mem_zmultiples_iff.mp hx
          obtain ⟨b, rfl⟩ := AddSubgroup.mem_zmultiples_iff.mp hy
          exact ⟨fun i => if i = 0 then a else b, 0, AddSubgroup.zero_mem _, by rw [two, smul_zero, add_zero]⟩

/-- the hypotheses of C105 hold for the group with four elements which is not cyclic, with `p = 2`; so two points are returned which
generate the group modulo 2 -/
example : (∀ t ∈ pCoTorsion addOrderOf [((0, 0) : ZMod 2 × ZMod 2), (0, 1), (1, 0), (1, 1)] 2, t ∈ AddCommGroup.torsion _) ∧
    ∀ t ∈ AddCommGroup.torsion (ZMod 2 × ZMod 2), ∃ n, ∃ t' ∈ AddCommGroup.torsion (ZMod 2 × ZMod 2),
      t = comb n (pCoTorsion addOrderOf [((0, 0) : ZMod 2 × ZMod 2), (0, 1), (1, 0), (1, 1)] 2) + 2 • t' := by
  have o : ∀ x : ZMod 2 × ZMod 2, x ≠ 0 → addOrderOf x = 2 := fun x hx => by
    have : Fact (Nat.Prime 2) := ⟨Nat.prime_two⟩
    exact addOrderOf_eq_prime (by revert x; decide) hx
  have ha : ∀ t : ZMod 2 × ZMod 2, t ∈ [((0, 0) : ZMod 2 × ZMod 2), (0, 1), (1, 0), (1, 1)] := by decide
  refine C105_cotorsion Nat.prime_two (by decide) (fun t => ⟨fun _ => ?_, fun _ => ha t⟩)
    (Or.inr ⟨⟨(0, 1), by decide, ?_⟩, (0, 1), by decide, (1, 0), by decide, by decide, o _ (by decide), o _ (by decide)⟩)
  · exact isOfFinAddOrder_of_finite t
  · rw [o _ (by decide)]; rfl

end cotorsion

end Eclib.Sat.Props
