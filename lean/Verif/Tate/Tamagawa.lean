import Verif.Tate.Model
import Mathlib.GroupTheory.Exponent
import Mathlib.GroupTheory.Coset.Card
import Mathlib.Algebra.Ring.Parity
import Mathlib.GroupTheory.SpecificGroups.Cyclic
import Mathlib.Data.ZMod.Basic
import Mathlib.Algebra.Group.Subgroup.Finite
import Mathlib.Algebra.GCDMonoid.Nat
import Mathlib.Data.Nat.Factors
import Mathlib.Tactic.NormNum.GCD

/-!
# Tamagawa numbers and exponents (C53)

The specification: a Kodaira symbol, its geometric component group, and the component group over
the residue field as a subgroup of that, of order `c_p`.
-/

namespace Eclib.Tate

/-- Kodaira symbols -/
inductive Kodaira where
  | I (n : ℕ)
  | Istar (n : ℕ)
  | II | III | IV | IVstar | IIIstar | IIstar

/-- the coding of curve.h:229-238 ("My coding") -/
def Kodaira.code : Kodaira → ℤ
  | I n => 10 * n
  | Istar n => 10 * n + 1
  | II => 2
  | III => 3
  | IV => 4
  | IVstar => 5
  | IIIstar => 6
  | IIstar => 7

/-- the coding of Pari in the same table -/
def Kodaira.pari : Kodaira → ℤ
  | I 0 => 1
  | I (n + 1) => (n + 1) + 4
  | Istar 0 => -1
  | Istar (n + 1) => -((n + 1) + 4)
  | II => 2
  | III => 3
  | IV => 4
  | IVstar => -4
  | IIIstar => -3
  | IIstar => -2

/-- `G` is the group of components of the special fibre over an algebraic closure: cyclic of order
`n` for `I n` (trivial for `I 0`), the Klein group or cyclic of order four for `I*n`, and so on -/
def Kodaira.HasComp (k : Kodaira) (G : Type) [AddCommGroup G] : Prop :=
  match k with
  | I 0 => Nonempty (G ≃+ ZMod 1)
  | I (n + 1) => Nonempty (G ≃+ ZMod (n + 1))
  | Istar n => if Even n then Nonempty (G ≃+ ZMod 2 × ZMod 2) else Nonempty (G ≃+ ZMod 4)
  | II => Nonempty (G ≃+ ZMod 1)
  | III => Nonempty (G ≃+ ZMod 2)
  | IV => Nonempty (G ≃+ ZMod 3)
  | IVstar => Nonempty (G ≃+ ZMod 3)
  | IIIstar => Nonempty (G ≃+ ZMod 2)
  | IIstar => Nonempty (G ≃+ ZMod 1)

/-- a reduction type together with its component groups: `G` geometric, `H` over the residue
field -/
structure Fibre where
  kod : Kodaira
  G : Type
  [grp : AddCommGroup G]
  comp : kod.HasComp G
  H : AddSubgroup G

attribute [instance] Fibre.grp

/-- the exponent of the component group -/
noncomputable def Fibre.exponent (f : Fibre) : ℕ := AddMonoid.exponent f.H

/-- the order of the component group, the Tamagawa number -/
noncomputable def Fibre.card (f : Fibre) : ℕ := Nat.card f.H

/-- `info` encodes `f`: Kodaira code and `c_p` -/
def Fibre.Encodes (f : Fibre) (info : Red) : Prop := info.code = f.kod.code ∧ info.cp = f.card

/-! ### groups -/

theorem exponent_cyclic {G : Type} [AddCommGroup G] {n : ℕ} (e : G ≃+ ZMod n) (H : AddSubgroup G) :
    AddMonoid.exponent H = Nat.card H := by
  have : IsAddCyclic G := isAddCyclic_of_surjective e.symm e.symm.surjective
  exact IsAddCyclic.exponent_eq_card

theorem card_dvd {G : Type} [AddCommGroup G] {n : ℕ} (e : G ≃+ ZMod n) (H : AddSubgroup G) :
    Nat.card H ∣ n := by
  have := AddSubgroup.card_addSubgroup_dvd_card H
  rwa [Nat.card_congr e.toEquiv, Nat.card_zmod] at this

theorem klein_card {G : Type} [AddCommGroup G] (e : G ≃+ ZMod 2 × ZMod 2) (H : AddSubgroup G) :
    Nat.card H ∣ 4 := by
  have := AddSubgroup.card_addSubgroup_dvd_card H
  rwa [Nat.card_congr e.toEquiv, Nat.card_prod, Nat.card_zmod] at this

theorem klein_exponent {G : Type} [AddCommGroup G] (e : G ≃+ ZMod 2 × ZMod 2) (H : AddSubgroup G) :
    AddMonoid.exponent H = if Nat.card H = 1 then 1 else 2 := by
  have h2 : AddMonoid.exponent H ∣ 2 := by
    apply AddMonoid.exponent_dvd_of_forall_nsmul_eq_zero
    intro g
    apply Subtype.ext
    apply e.injective
    rw [AddSubgroup.coe_nsmul, map_nsmul, AddSubgroup.coe_zero, map_zero]
    generalize e (g : G) = x
    revert x
    decide
  have h1 : AddMonoid.exponent H = 1 ↔ Nat.card H = 1 := by
    rw [AddMonoid.exp_eq_one_iff, Nat.card_eq_one_iff_unique]
    exact ⟨fun h => ⟨h, ⟨0⟩⟩, fun h => h.1⟩
  rcases (Nat.dvd_prime Nat.prime_two).mp h2 with h | h
  · rw [h, if_pos (h1.mp h)]
  · rw [h, if_neg]
    intro h'
    rw [h1.mpr h'] at h
    omega

theorem card_mem_four {n : ℕ} (h : n ∣ 4) : n = 1 ∨ n = 2 ∨ n = 4 := by
  have := Nat.le_of_dvd (by norm_num) h
  interval_cases n <;> omega

/-- the exponent in terms of the code and `c_p` -/
theorem group_exponent {k : Kodaira} {G : Type} [AddCommGroup G] (h : k.HasComp G) (H : AddSubgroup G)
    {c : ℕ} (hc : Nat.card H = c) :
    (AddMonoid.exponent H : ℤ) = if (c : ℤ) ≠ 4 then (c : ℤ) else if k.code.tmod 20 = 1 then 2 else 4 := by
  have cyc : ∀ n : ℕ, (n = 1 ∨ n = 2 ∨ n = 3) → Nonempty (G ≃+ ZMod n) → ∀ d : ℤ,
      (AddMonoid.exponent H : ℤ) = if (c : ℤ) ≠ 4 then (c : ℤ) else d := by
    intro n hn ⟨e⟩ d
    have hd := card_dvd e H
    rw [exponent_cyclic e H, hc, if_pos]
    intro h4
    have h4' : c = 4 := by exact_mod_cast h4
    rw [hc, h4'] at hd
    rcases hn with rfl | rfl | rfl <;> revert hd <;> decide
  cases k with
  | I n =>
    have key : (AddMonoid.exponent H : ℤ) = c := by
      rw [← hc]
      cases n with
      | zero => obtain ⟨e⟩ := h; rw [exponent_cyclic e H]
      | succ n => obtain ⟨e⟩ := h; rw [exponent_cyclic e H]
    rw [key]
    have : ¬ (Kodaira.I n).code.tmod 20 = 1 := by
      simp only [Kodaira.code]
      rw [Int.tmod_eq_emod_of_nonneg (by positivity)]
      omega
    rw [if_neg this]
    by_cases h4 : (c : ℤ) = 4
    · rw [if_neg (not_not.mpr h4), h4]
    · rw [if_pos h4]
  | Istar n =>
    by_cases hn : Even n
    · simp only [Kodaira.HasComp, if_pos hn] at h
      obtain ⟨e⟩ := h
      have : (Kodaira.Istar n).code.tmod 20 = 1 := by
        simp only [Kodaira.code]
        rw [Int.tmod_eq_emod_of_nonneg (by positivity)]
        rw [Nat.even_iff] at hn
        omega
      rw [if_pos this, klein_exponent e H, hc]
      have hd := klein_card e H
      rw [hc] at hd
      rcases card_mem_four hd with h | h | h <;> subst h <;> norm_num
    · simp only [Kodaira.HasComp, if_neg hn] at h
      obtain ⟨e⟩ := h
      have : ¬ (Kodaira.Istar n).code.tmod 20 = 1 := by
        simp only [Kodaira.code]
        rw [Int.tmod_eq_emod_of_nonneg (by positivity)]
        rw [Nat.even_iff] at hn
        omega
      rw [if_neg this, exponent_cyclic e H, hc]
      by_cases h4 : (c : ℤ) = 4
      · rw [if_neg (not_not.mpr h4), h4]
      · rw [if_pos h4]
  | II => exact cyc 1 (by simp) h _
  | III => exact cyc 2 (by simp) h _
  | IV => exact cyc 3 (by simp) h _
  | IVstar => exact cyc 3 (by simp) h _
  | IIIstar => exact cyc 2 (by simp) h _
  | IIstar => exact cyc 1 (by simp) h _

theorem fibre_exponent (f : Fibre) :
    (f.exponent : ℤ) = if (f.card : ℤ) ≠ 4 then (f.card : ℤ) else if f.kod.code.tmod 20 = 1 then 2 else 4 :=
  group_exponent f.comp f.H rfl

/-- the component groups are finite -/
theorem Fibre.card_pos (f : Fibre) : 0 < f.card := by
  have hfin : Finite f.G := by
    obtain ⟨k, G, h, H⟩ := f
    cases k with
    | I n => cases n <;> exact .of_equiv _ h.some.symm.toEquiv
    | Istar n =>
      by_cases hn : Even n
      · simp only [Kodaira.HasComp, if_pos hn] at h
        exact .of_equiv _ h.some.symm.toEquiv
      · simp only [Kodaira.HasComp, if_neg hn] at h
        exact .of_equiv _ h.some.symm.toEquiv
    | _ => exact .of_equiv _ h.some.symm.toEquiv
  exact Nat.card_pos

/-! ### the program -/

/-- **C53** `local_Tamagawa_exponent(c,p)` at a prime of the map is the exponent of the component
group encoded by the Kodaira code and `c_p`. -/
theorem C53_local (c : CurveRed) {p : ℤ} (hp : p ≠ 0) {info : Red} (hf : c.find p = some info)
    (f : Fibre) (hi : f.Encodes info) : c.localExponent p = f.exponent := by
  rw [CurveRed.localExponent, if_neg hp, hf, fibre_exponent]
  simp only [hi.1, hi.2]

/-- **C53** at a prime of good reduction the exponent and the number are 1 -/
theorem C53_local_good (c : CurveRed) {p : ℤ} (hp : p ≠ 0) (hf : c.find p = none) :
    c.localExponent p = 1 ∧ c.localTamagawa p = 1 := by
  simp [CurveRed.localExponent, CurveRed.localTamagawa, CurveRed.cp, hp, hf]

theorem lcmZ_eq {a b : ℤ} (ha : 0 < a) (hb : 0 < b) : lcmZ a b = (Int.lcm a b : ℤ) := by
  rw [lcmZ, if_neg (by omega)]
  have h1 : (Int.gcd a b : ℤ) ∣ b := Int.gcd_dvd_right ..
  have h2 : (Int.gcd a b : ℤ) * (Int.lcm a b : ℤ) = a * b := by
    have := Int.gcd_mul_lcm a b
    have h3 : (a.natAbs : ℤ) = a := Int.natAbs_of_nonneg ha.le
    have h4 : (b.natAbs : ℤ) = b := Int.natAbs_of_nonneg hb.le
    calc (Int.gcd a b : ℤ) * (Int.lcm a b : ℤ) = ((Int.gcd a b * Int.lcm a b : ℕ) : ℤ) := by push_cast; rfl
      _ = a * b := by rw [this]; push_cast; rw [← Int.natCast_natAbs, h3, ← Int.natCast_natAbs, h4]
  have hg : 0 < (Int.gcd a b : ℤ) := by
    have : Int.gcd a b ≠ 0 := by
      rw [Ne, Int.gcd_eq_zero_iff]
      omega
    omega
  generalize (Int.gcd a b : ℤ) = g at *
  generalize (Int.lcm a b : ℤ) = l at *
  rw [Int.fdiv_eq_ediv_of_nonneg _ hg.le]
  obtain ⟨t, rfl⟩ := h1
  rw [Int.mul_ediv_cancel_left _ hg.ne']
  apply mul_left_cancel₀ hg.ne'
  rw [h2]
  ring

/-- the lcm of a list -/
def lcmList (l : List ℕ) : ℕ := l.foldl Nat.lcm 1

theorem foldl_lcm (l : List (ℤ × Red)) (hpos : ∀ e ∈ l, 0 < ep e.2) : ∀ (a : ℕ), 0 < a →
    l.foldl (fun ans e => lcmZ ans (ep e.2)) (a : ℤ) = ((l.map fun e => (ep e.2).toNat).foldl Nat.lcm a : ℕ) := by
  induction l with
  | nil => intro a _; rfl
  | cons e l ih =>
    intro a ha
    have he := hpos e (by simp)
    have h1 : lcmZ (a : ℤ) (ep e.2) = ((Nat.lcm a (ep e.2).toNat : ℕ) : ℤ) := by
      rw [lcmZ_eq (by exact_mod_cast ha) he]
      rw [Int.lcm_eq_natAbs_lcm_natAbs, Int.natAbs_natCast]
      congr 2
      omega
    simp only [List.foldl_cons, List.map_cons, h1]
    exact ih (fun x hx => hpos x (List.mem_cons_of_mem _ hx)) _ (Nat.lcm_pos ha (by omega))

theorem card_of_code (f : Fibre) (hc : f.kod.code.tmod 20 = 1) : f.card = 1 ∨ f.card = 2 ∨ f.card = 4 := by
  obtain ⟨k, G, h, H⟩ := f
  cases k with
  | I n =>
    simp only [Kodaira.code] at hc
    rw [Int.tmod_eq_emod_of_nonneg (by positivity)] at hc
    omega
  | Istar n =>
    have hn : Even n := by
      simp only [Kodaira.code] at hc
      rw [Int.tmod_eq_emod_of_nonneg (by positivity)] at hc
      rw [Nat.even_iff]
      omega
    simp only [Kodaira.HasComp, if_pos hn] at h
    exact card_mem_four (klein_card h.some H)
  | _ =>
    simp only [Kodaira.code] at hc
    exact absurd hc (by decide)

/-- what `ep` is for an encoded fibre: the exponent, except that `I*n` with `n` even and a trivial
component group gives 2 -/
theorem ep_eq {f : Fibre} {info : Red} (hi : f.Encodes info) :
    ep info = if info.code.tmod 20 = 1 ∧ f.card = 1 then 2 else (f.exponent : ℤ) := by
  have h := fibre_exponent f
  rw [ep, hi.1, hi.2]
  by_cases hc : f.kod.code.tmod 20 = 1
  · rw [if_pos hc] at h
    rw [if_pos hc]
    by_cases h1 : f.card = 1
    · rw [if_pos ⟨hc, h1⟩]
    · rw [if_neg (fun h => h1 h.2), h]
      have hm := card_of_code f hc
      rcases hm with hm | hm | hm
      · exact absurd hm h1
      · rw [hm]
        norm_num
      · rw [hm]
        norm_num
  · rw [if_neg hc] at h
    rw [if_neg hc, if_neg (fun h => hc h.1), h]
    split_ifs with h4
    · rfl
    · omega

theorem exponent_pos (f : Fibre) : 0 < f.exponent := by
  have h := fibre_exponent f
  have hc := f.card_pos
  split_ifs at h <;> omega

theorem ep_pos {f : Fibre} {info : Red} (hi : f.Encodes info) : 0 < ep info := by
  rw [ep_eq hi]
  have := exponent_pos f
  split_ifs <;> omega

theorem foldl_lcm_dvd (l : List ℕ) (a m : ℕ) : l.foldl Nat.lcm a ∣ m ↔ a ∣ m ∧ ∀ x ∈ l, x ∣ m := by
  induction l generalizing a with
  | nil => simp
  | cons x l ih =>
    rw [List.foldl_cons, ih, Nat.lcm_dvd_iff]
    simp only [List.mem_cons, forall_eq_or_imp]
    tauto

/-- the reduction data of a curve: each entry of the map encodes a fibre -/
def Good (c : CurveRed) (F : ℤ → Fibre) : Prop :=
  (c.conncomp = 1 ∨ c.conncomp = 2) ∧ (c.reduct.map Prod.fst).Nodup ∧
    ∀ e ∈ c.reduct, e.1 ≠ 0 ∧ (F e.1).Encodes e.2

theorem lookup_of_mem {c : CurveRed} (hn : (c.reduct.map Prod.fst).Nodup) {e : ℤ × Red}
    (he : e ∈ c.reduct) : c.find e.1 = some e.2 := by
  rw [CurveRed.find]
  generalize c.reduct = l at hn he
  induction l with
  | nil => simp at he
  | cons x l ih =>
    rw [List.map_cons, List.nodup_cons] at hn
    rcases List.mem_cons.mp he with rfl | he
    · rw [List.lookup_cons, beq_self_eq_true]
    · have : e.1 ≠ x.1 := fun h => hn.1 (h ▸ List.mem_map_of_mem he)
      rw [List.lookup_cons, show (e.1 == x.1) = false by simpa using this]
      exact ih hn.2 he

theorem foldl_lcm_pos (l : List ℕ) (hl : ∀ x ∈ l, 0 < x) : ∀ a, 0 < a → 0 < l.foldl Nat.lcm a := by
  induction l with
  | nil => intro a ha; exact ha
  | cons x l ih =>
    intro a ha
    exact ih (fun y hy => hl y (List.mem_cons_of_mem _ hy)) _ (Nat.lcm_pos ha (hl x (by simp)))

/-- the exact value: the lcm of the exponents, with 2 in place of 1 for a fibre of type `I*n`, `n`
even, with trivial component group -/
theorem globalExponent_spec (c : CurveRed) (F : ℤ → Fibre) (hc : Good c F) (realToo : Bool) :
    ∃ g : ℕ, c.globalExponent realToo = g ∧ 0 < g ∧ ∀ m : ℕ, g ∣ m ↔
      (realToo = true → c.conncomp.toNat ∣ m) ∧
      ∀ e ∈ c.reduct, (if e.2.code.tmod 20 = 1 ∧ (F e.1).card = 1 then 2 else (F e.1).exponent) ∣ m := by
  obtain ⟨h0, hn, h1⟩ := hc
  have hpos : ∀ e ∈ c.reduct, 0 < ep e.2 := fun e he => ep_pos (h1 e he).2
  have hstart : (if realToo && c.conncomp == 2 then (2 : ℤ) else 1) =
      ((if realToo && c.conncomp == 2 then 2 else 1 : ℕ) : ℤ) := by split_ifs <;> rfl
  have hsp : 0 < (if realToo && c.conncomp == 2 then 2 else 1 : ℕ) := by split_ifs <;> norm_num
  refine ⟨_, by rw [CurveRed.globalExponent, hstart, foldl_lcm _ hpos _ hsp], ?_, fun m => ?_⟩
  · refine foldl_lcm_pos _ ?_ _ hsp
    intro x hx
    obtain ⟨e, he, rfl⟩ := List.mem_map.mp hx
    have := hpos e he
    omega
  · rw [foldl_lcm_dvd]
    refine and_congr ?_ ?_
    · rcases h0 with h | h <;> cases realToo <;> simp [h]
    · simp only [List.mem_map, forall_exists_index, and_imp, forall_apply_eq_imp_iff₂]
      refine forall₂_congr fun e he => ?_
      have := ep_eq (h1 e he).2
      have h2 : (ep e.2).toNat = if e.2.code.tmod 20 = 1 ∧ (F e.1).card = 1 then 2 else (F e.1).exponent := by
        rw [this]
        split_ifs <;> simp
      rw [h2]

/-- **C53** `global_Tamagawa_exponent`, for all reduction data: it is a multiple of the exponent of
every component group, so multiplication by it kills every component group (and, if asked for, the
group of real components) -/
theorem C53_global_kills (c : CurveRed) (F : ℤ → Fibre) (hc : Good c F) (realToo : Bool) :
    ∃ g : ℕ, c.globalExponent realToo = g ∧ 0 < g ∧ (realToo = true → c.conncomp.toNat ∣ g) ∧
      ∀ e ∈ c.reduct, (F e.1).exponent ∣ g ∧ ∀ x : (F e.1).H, g • x = 0 := by
  obtain ⟨g, h1, h2, h3⟩ := globalExponent_spec c F hc realToo
  have h4 := (h3 g).mp dvd_rfl
  refine ⟨g, h1, h2, h4.1, fun e he => ?_⟩
  have h5 : (F e.1).exponent ∣ g := by
    have := h4.2 e he
    split_ifs at this with h
    · have he := ep_eq (hc.2.2 e he).2
      have hx := fibre_exponent (F e.1)
      rw [h.2] at hx
      norm_num at hx
      have hx' : (F e.1).exponent = 1 := by exact_mod_cast hx
      rw [hx']
      exact one_dvd _
    · exact this
  refine ⟨h5, fun x => ?_⟩
  obtain ⟨t, rfl⟩ := h5
  rw [mul_comm, mul_nsmul', Fibre.exponent, AddMonoid.exponent_nsmul_eq_zero, nsmul_zero]

/-- **C53** `global_Tamagawa_exponent` is the lcm of the local exponents if no fibre is of type
`I*n`, `n` even, with trivial component group: `m` is a multiple of it exactly when it is a multiple
of `local_Tamagawa_exponent` at every bad prime (and at infinity, if asked for).  The excluded case
is refuted by `C53_global_not_lcm`. -/
theorem C53_global_partial (c : CurveRed) (F : ℤ → Fibre) (hc : Good c F) (realToo : Bool)
    (hex : ∀ e ∈ c.reduct, ¬ (e.2.code.tmod 20 = 1 ∧ (F e.1).card = 1)) :
    ∃ g : ℕ, c.globalExponent realToo = g ∧ 0 < g ∧ ∀ m : ℕ, g ∣ m ↔
      (realToo = true → (c.localExponent 0) ∣ (m : ℤ)) ∧
      ∀ e ∈ c.reduct, c.localExponent e.1 ∣ (m : ℤ) := by
  obtain ⟨g, h1, h2, h3⟩ := globalExponent_spec c F hc realToo
  refine ⟨g, h1, h2, fun m => ?_⟩
  rw [h3]
  refine and_congr ?_ ?_
  · have : (c.conncomp.toNat : ℤ) = c.localExponent 0 := by
      have h := hc.1
      rw [CurveRed.localExponent, if_pos rfl]
      omega
    rw [← this, Int.natCast_dvd_natCast]
  · refine forall₂_congr fun e he => ?_
    rw [if_neg (hex e he), C53_local c (hc.2.2 e he).1 (lookup_of_mem hc.2.1 he) (F e.1) (hc.2.2 e he).2,
      Int.natCast_dvd_natCast]

/-- the fibre of type `I*0` with trivial component group over the residue field -/
def istar0 : Fibre where
  kod := .Istar 0
  G := ZMod 2 × ZMod 2
  comp := by
    rw [Kodaira.HasComp, if_pos (by decide)]
    exact ⟨AddEquiv.refl _⟩
  H := ⊥

theorem istar0_card : istar0.card = 1 := by
  show Nat.card (⊥ : AddSubgroup (ZMod 2 × ZMod 2)) = 1
  exact AddSubgroup.card_bot

/-- **Finding.**  For a curve with one bad prime, of type `I*0` with `c_p = 1` (which Tate's
algorithm returns when the cubic has no root), `local_Tamagawa_exponent` is 1, the exponent of the
trivial component group, but `global_Tamagawa_exponent` is 2. -/
theorem C53_global_not_lcm :
    let c : CurveRed := ⟨1, [(7, ⟨6, 2, 0, 1, 1⟩)]⟩
    Good c (fun _ => istar0) ∧ istar0.exponent = 1 ∧ c.localExponent 7 = 1 ∧
      c.localExponent 0 = 1 ∧ c.globalExponent true = 2 := by
  intro c
  refine ⟨⟨Or.inl rfl, by decide, ?_⟩, ?_, by decide, by decide, by decide⟩
  · intro e he
    have he' : e = (7, ⟨6, 2, 0, 1, 1⟩) := by simpa [c] using he
    subst he'
    refine ⟨by decide, rfl, ?_⟩
    rw [istar0_card]
    rfl
  · have hx := fibre_exponent istar0
    rw [istar0_card] at hx
    norm_num at hx
    exact_mod_cast hx

theorem foldl_mul (l : List ℤ) (a : ℤ) : l.foldl (· * ·) a = a * l.prod := by
  induction l generalizing a with
  | nil => simp
  | cons x l ih => rw [List.foldl_cons, ih, List.prod_cons, mul_assoc]

/-- **C53** `global_Tamagawa_number` is the product of the orders of the component groups, times the
number of real components if asked for; the local numbers are those orders -/
theorem C53_number (c : CurveRed) (F : ℤ → Fibre) (hc : Good c F) (realToo : Bool) :
    c.globalTamagawa realToo =
      ((c.reduct.map fun e => (F e.1).card).prod : ℕ) * (if realToo then c.conncomp else 1) ∧
      ∀ e ∈ c.reduct, c.localTamagawa e.1 = (F e.1).card := by
  constructor
  · rw [CurveRed.globalTamagawa, CurveRed.prodcp, foldl_mul, one_mul]
    congr 1
    rw [Nat.cast_list_prod, List.map_map]
    congr 1
    refine List.map_congr_left fun e he => ?_
    exact (hc.2.2 e he).2.2
  · intro e he
    rw [CurveRed.localTamagawa, if_neg (hc.2.2 e he).1, CurveRed.cp, lookup_of_mem hc.2.1 he]
    exact (hc.2.2 e he).2.2

/-- **C53** `PariKodairaCode` translates the coding of curve.h into that of Pari -/
theorem C53_pari (k : Kodaira) : pariCode k.code = k.pari := by
  cases k with
  | I n =>
    cases n with
    | zero => rfl
    | succ n =>
      have e : (Kodaira.I (n + 1)).code = 10 * ((n + 1 : ℕ) : ℤ) := rfl
      rw [e, pariCode, Kodaira.pari]
      rw [if_neg (by push_cast; omega), if_neg (by push_cast; omega), if_pos, Int.mul_tdiv_cancel_left _ (by norm_num)]
      · push_cast; rfl
      · exact Int.mul_tmod_right ..
  | Istar n =>
    cases n with
    | zero => rfl
    | succ n =>
      have e : (Kodaira.Istar (n + 1)).code = 10 * ((n + 1 : ℕ) : ℤ) + 1 := rfl
      rw [e, pariCode, Kodaira.pari]
      rw [if_neg (by push_cast; omega), if_neg (by push_cast; omega), if_neg, if_pos]
      · have e : (1 : ℤ) - (10 * ((n + 1 : ℕ) : ℤ) + 1) = 10 * (-((n + 1 : ℕ) : ℤ)) := by ring
        rw [e, Int.mul_tdiv_cancel_left _ (by norm_num)]
        push_cast
        ring
      · rw [Int.tmod_eq_emod_of_nonneg (by positivity)]
        omega
      · rw [Int.tmod_eq_emod_of_nonneg (by positivity)]
        omega
  | _ => rfl

/-- a fibre with a cyclic component group of order four, as in `I*1`: an instance of the hypotheses
of the theorems above -/
def istar1 : Fibre where
  kod := .Istar 1
  G := ZMod 4
  comp := by
    rw [Kodaira.HasComp, if_neg (by decide)]
    exact ⟨AddEquiv.refl _⟩
  H := ⊤

theorem istar1_card : istar1.card = 4 := by
  show Nat.card (⊤ : AddSubgroup (ZMod 4)) = 4
  rw [AddSubgroup.card_top, Nat.card_zmod]

example : (⟨2, [(3, ⟨7, 2, 1, 11, 4⟩)]⟩ : CurveRed).localExponent 3 = istar1.exponent :=
  C53_local _ (by decide) rfl istar1 ⟨rfl, by rw [istar1_card]; rfl⟩

example : Good ⟨2, [(3, ⟨7, 2, 1, 11, 4⟩)]⟩ (fun _ => istar1) ∧
    (⟨2, [(3, ⟨7, 2, 1, 11, 4⟩)]⟩ : CurveRed).globalExponent true = 4 := by
  refine ⟨⟨Or.inr rfl, by decide, ?_⟩, by decide⟩
  intro e he
  have he' : e = (3, ⟨7, 2, 1, 11, 4⟩) := by simpa using he
  subst he'
  refine ⟨by decide, rfl, ?_⟩
  rw [istar1_card]
  rfl

end Eclib.Tate
