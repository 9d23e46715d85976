import Verif.Newf.ApProps

/-!
# C106: the coordinates of a dual eigenvector, and the choice of the symbols used by `apvec`
-/

namespace Eclib.Newf

open Ratl (R)
open Symb (Symbdata)
open Symb.SymbSpec Symb.CuspSpec Hom Hom.ManinSpec NewfSpec
open Svec (T SV)
open Smat.Props (SRep)
open Elim (RrefOk SparseOk)

/-- the vectors of coordinates of a space are sparse vectors of length `rk` with reduced entries -/
theorem make_vecs {q : ℕ} [Fact q.Prime] {N : ℤ} (hN : 1 < N) {ps : List ℤ} (hps : Spec.IsPrimeDivisorList N ps)
    {S : Symbdata} (hS : Symbdata.make N ps = some S) {pf : ℤ} (hq : 3 < q)
    (X : Marith.XGcd) (t : T) {sparse : Elim.St → Bool} (hsp : SparseOk sparse) {rref : Mat.M → Mat.Ech}
    (hRr : RrefOk q rref) {fuel : ℕ} (hf : (S.nsymb.toNat + 11) * (2 * S.nsymb.toNat + 11) ≤ fuel) {H : Space} {th : Three}
    (e : make X t q sparse rref fuel S pf = some (H, th)) : ∀ w ∈ H.vecs, ∃ a : Fin H.rk → ℤ, SRep True w a ∧ ∀ j, |a j| < q := by
  have hok := Symb.Props.ok_of_make hN hps hS
  obtain ⟨two, e1, i2⟩ := twoTerm_spec hN hok pf
  have hv := invol hN hok pf
  have hb : ∀ i < num S, |two.ci.getD i 0| ≤ two.gens.length := fun i h => i2.bound hv h
  have hR : ∀ y : ℕ → ZMod q, pf ≠ 0 → ∃ e : ZMod q, e ≠ 0 ∧ ∀ i < num S, phi two.ci y (mR S i) = e * phi two.ci y i :=
    fun y h => phi_R hN hok i2 y h
  obtain ⟨th', e2, i3⟩ := threeTerm_spec hN hok hq i2.li hb hR t
  have hbd : th'.numrel ≤ two.gens.length + 1 := by
    obtain ⟨ks, hk1, hk2, _⟩ := i3.reps
    rw [← hk1]
    exact reps_bound hN hok i2 hk2
  obtain ⟨A, hA, hA3, _, hAr⟩ := i3.rep
  have hg := i2.ngens
  obtain ⟨sp, k, B, piv, e3, hsub, hker⟩ := Elim.C73_kernel (q := q) X t hA
    (fun i j => lt_of_le_of_lt (hA3 i j) (by exact_mod_cast hq)) hsp hRr (fuel := fuel) (by
      refine le_trans ?_ hf
      apply Nat.mul_le_mul
      · unfold num at *; omega
      · unfold num at *; omega)
  obtain ⟨vecs, e4, hvl, hvec⟩ := rows_spec hsub.rep
  have e5 := free_spec (gens := two.gens) rfl piv
  have hnco : sp.basis.nco = k := hsub.rep.nco
  subst hnco
  have e6 : make X t q sparse rref fuel S pf =
      some (⟨S, pf, two.ci, vecs, sp.basis.nco, List.ofFn fun i => two.gens.getD (piv i) 0⟩, th') := by
    unfold make
    rw [e1, Option.bind_some, e2, Option.bind_some, e3, Option.bind_some, e4, Option.bind_some, hsub.pivots, e5]
    rfl
  rw [e] at e6
  obtain ⟨rfl, -⟩ := Prod.mk.inj (Option.some.inj e6)
  intro w hw
  simp only at hw
  obtain ⟨i, hi, rfl⟩ := List.getElem_of_mem hw
  obtain ⟨v, ev, hv'⟩ := hvec ⟨i, by omega⟩
  simp only at ev
  rw [List.getElem?_eq_getElem hi] at ev
  rw [Option.some.inj ev]
  exact ⟨_, hv', fun j => Elim.least_abs (hsub.least _ j)⟩

/-- the dot product of a vector of coordinates with a dense vector -/
theorem dot_spec {q : ℕ} [Fact q.Prime] (t : T) {k : ℕ} {w : SV} {a : Fin k → ℤ} (hw : SRep True w a) (ha : ∀ j, |a j| < q)
    {b : List ℤ} (hb : b.length = k) (hbq : ∀ x ∈ b, |x| < q) :
    ∃ r, Svec.dotVecModP t w b q = some r ∧ (r : ZMod q) = ∑ j : Fin k, ((a j : ℤ) : ZMod q) * ((b.getD j 0 : ℤ) : ZMod q) := by
  have hq0 : (q : ℤ) ≠ 0 := by exact_mod_cast (Fact.out : q.Prime).ne_zero
  obtain ⟨r, h1, h2⟩ := Svec.Props.C15_dotVecModP t w b q hw.wf (by rw [hw.dim, hb]) hq0 (by
    intro e he
    obtain ⟨j, -, h4⟩ := Elim.Is.mem hw.is he
    rw [h4]
    exact Elim.red_of_abs (ha j)) (fun x hx => Elim.red_of_abs (hbq x hx))
  refine ⟨r, h1, ?_⟩
  have h3 : (r : ZMod q) = ((∑ i ∈ Finset.Icc (1 : Int) w.d, Svec.elem w i * b.getD (i - 1).toNat 0 : ℤ) : ZMod q) := by
    have h4 : (q : ℤ) ∣ r - ∑ i ∈ Finset.Icc (1 : Int) w.d, Svec.elem w i * b.getD (i - 1).toNat 0 := h2
    have := (ZMod.intCast_zmod_eq_zero_iff_dvd _ q).2 h4
    rw [Int.cast_sub, sub_eq_zero] at this
    exact this
  rw [h3, hw.dim]
  have h5 : ∑ i ∈ Finset.Icc (1 : Int) k, Svec.elem w i * b.getD (i - 1).toNat 0 = ∑ j : Fin k, a j * b.getD j 0 := by
    symm
    apply Finset.sum_bij (fun (j : Fin k) _ => ((j : ℕ) : ℤ) + 1)
    · intro j _
      have := j.2
      simp only [Finset.mem_Icc]
      omega
    · intro i _ j _ h
      exact Fin.ext (by omega)
    · intro i hi
      rw [Finset.mem_Icc] at hi
      exact ⟨⟨(i - 1).toNat, by omega⟩, Finset.mem_univ _, by simp; omega⟩
    · intro j _
      rw [hw.val j]
      simp
  rw [h5]
  push_cast
  rfl

theorem dot_bound (t : T) {q : ℤ} (hq : 0 < q) {w : SV} {b : List ℤ} {r : ℤ} (h : Svec.dotVecModP t w b q = some r) : 2 * |r| ≤ q := by
  have key : ∀ (m : Svec.Map) (a r : ℤ), 2 * |a| ≤ q → m.foldl (fun r e => r.bind fun ans =>
      if 1 ≤ e.1 ∧ e.1 ≤ (b.length : Int) then
        some (Svec.smod t (ans + Svec.sxmodmul t e.2 (b.getD (e.1 - 1).toNat 0) q) q) else none) (some a) = some r → 2 * |r| ≤ q := by
    intro m
    induction m with
    | nil => intro a r ha h; rw [← Option.some.inj h]; exact ha
    | cons e m ih =>
      intro a r ha h
      rw [List.foldl_cons, Option.bind_some] at h
      split_ifs at h with h1
      · refine ih _ r ?_ h
        obtain ⟨-, h2, h3⟩ := Svec.Props.smod_spec t (a + Svec.sxmodmul t e.2 (b.getD (e.1 - 1).toNat 0) q) q hq.ne'
        rw [abs_of_pos hq] at h2 h3
        generalize Svec.smod t _ q = z at h2 h3 ⊢
        rcases abs_cases z with ⟨h4, _⟩ | ⟨h4, _⟩ <;> rw [h4] <;> omega
      · exfalso
        have : ∀ m : Svec.Map, m.foldl (fun r e => r.bind fun ans =>
            if 1 ≤ e.1 ∧ e.1 ≤ (b.length : Int) then
              some (Svec.smod t (ans + Svec.sxmodmul t e.2 (b.getD (e.1 - 1).toNat 0) q) q) else none) none = none := by
          intro m
          induction m with
          | nil => rfl
          | cons e m ih => rw [List.foldl_cons]; exact ih
        rw [this] at h
        cases h
  exact key w.entries 0 r (by simp [hq.le]) h

theorem mapM_some_all {α β : Type*} {g : α → Option β} {P : α → β → Prop} : ∀ {l : List α}, (∀ a ∈ l, ∃ r, g a = some r ∧ P a r) →
    ∃ rs, l.mapM g = some rs ∧ List.Forall₂ P l rs
  | [], _ => ⟨[], rfl, .nil⟩
  | a :: l, h => by
    obtain ⟨r, e, hr⟩ := h a List.mem_cons_self
    obtain ⟨rs, es, hs⟩ := mapM_some_all (l := l) fun a ha => h a (List.mem_cons_of_mem _ ha)
    exact ⟨r :: rs, by rw [List.mapM_cons, e, es]; rfl, .cons hr hs⟩

theorem foldl_gcd (l : List ℤ) : ∀ a : ℤ, 0 ≤ a → 0 ≤ l.foldl (fun x y => (Int.gcd x y : ℤ)) a ∧
    l.foldl (fun x y => (Int.gcd x y : ℤ)) a ∣ a ∧ (∀ x ∈ l, l.foldl (fun x y => (Int.gcd x y : ℤ)) a ∣ x) ∧
    ∀ e, e ∣ a → (∀ x ∈ l, e ∣ x) → e ∣ l.foldl (fun x y => (Int.gcd x y : ℤ)) a := by
  induction l with
  | nil => intro a ha; exact ⟨ha, dvd_rfl, by simp, fun e h _ => h⟩
  | cons y l ih =>
    intro a ha
    obtain ⟨h0, h1, h2, h3⟩ := ih (Int.gcd a y) (by positivity)
    rw [List.foldl_cons]
    refine ⟨h0, h1.trans (Int.gcd_dvd_left ..), ?_, fun e he hl => ?_⟩
    · intro x hx
      rcases List.mem_cons.1 hx with rfl | hx
      · exact h1.trans (Int.gcd_dvd_right ..)
      · exact h2 x hx
    · exact h3 e (Int.dvd_coe_gcd he (hl y List.mem_cons_self)) fun x hx => hl x (List.mem_cons_of_mem _ hx)

theorem content_spec (l : List ℤ) : 0 ≤ content l ∧ (∀ x ∈ l, content l ∣ x) ∧ (l ≠ [] → ∀ e, (∀ x ∈ l, e ∣ x) → e ∣ content l) := by
  unfold content
  split_ifs with h
  · subst h
    simp
  · obtain ⟨h0, -, h2, h3⟩ := foldl_gcd l 0 le_rfl
    exact ⟨h0, h2, fun _ e he => h3 e (dvd_zero e) he⟩

theorem coords_core {q : ℕ} [Fact q.Prime] {N pf : ℤ} {H : Space} {x : ℤ → ℤ → Fin H.rk → ℤ} {gen : Fin H.rk → ℤ × ℤ}
    (h : SpaceOk q N pf H x gen) (hvecs : ∀ w ∈ H.vecs, ∃ a : Fin H.rk → ℤ, SRep True w a ∧ ∀ j, |a j| < q) (t : T) {b : List ℤ}
    (hb : b.length = H.rk) (hbq : ∀ x ∈ b, |x| < q) :
    ∃ coords g, findCoords t q H b = some (coords, g) ∧ 0 ≤ g ∧
      (∀ f φ, IsManin N pf φ → Assoc f φ → (∀ j : Fin H.rk, f (rc (modsym (gen j)).1) (rc (modsym (gen j)).2) = ((b.getD j 0 : ℤ) : ZMod q)) →
        ∀ c d : ℤ, Unimod N c d → ∃ v, nfCd H coords c d = some v ∧ ((g * v : ℤ) : ZMod q) = φ c d ∧ 2 * |g * v| ≤ q) ∧
      (g ≠ 0 → ∀ e : ℤ, (∀ x ∈ coords, e ∣ x) → IsUnit e ∨ coords = []) := by
  have hq0 : (0 : ℤ) < q := by exact_mod_cast (Fact.out : q.Prime).pos
  have hdot : ∀ w ∈ H.vecs, ∃ r, Svec.dotVecModP t w b q = some r ∧ 2 * |r| ≤ q ∧
      ∀ a : Fin H.rk → ℤ, SRep True w a → (r : ZMod q) = ∑ j : Fin H.rk, ((a j : ℤ) : ZMod q) * ((b.getD j 0 : ℤ) : ZMod q) := by
    intro w hw
    obtain ⟨a, ha, haq⟩ := hvecs w hw
    obtain ⟨r, e1, e2⟩ := dot_spec t ha haq hb hbq
    refine ⟨r, e1, dot_bound t hq0 e1, fun a' ha' => ?_⟩
    have : a' = a := funext fun j => by rw [← ha'.val j, ← ha.val j]
    rw [this]
    exact e2
  obtain ⟨rs, e1, hrs⟩ := mapM_some_all hdot
  obtain ⟨hg0, hgd, hgg⟩ := content_spec rs
  have hco : ∀ y : ℤ, y ∈ rs → content rs * (if content rs > 1 then y.tdiv (content rs) else y) = y := by
    intro y hy
    split_ifs with h1
    · exact Int.mul_tdiv_cancel' (hgd y hy)
    · rcases (by omega : content rs = 0 ∨ content rs = 1) with h2 | h2
      · have := hgd y hy
        rw [h2, zero_dvd_iff] at this
        rw [h2, this, mul_zero]
      · rw [h2, one_mul]
  have hcd : (if content rs > 1 then rs.map fun x => x.tdiv (content rs) else rs) =
      rs.map fun y => if content rs > 1 then y.tdiv (content rs) else y := by
    split_ifs <;> simp
  refine ⟨rs.map fun y => if content rs > 1 then y.tdiv (content rs) else y, content rs, ?_, hg0, ?_, ?_⟩
  · unfold findCoords
    rw [e1, Option.map_some]
    simp only
    rw [hcd]
  · intro f φ hφ hA hfb c d hu
    obtain ⟨v, k1, k2⟩ := h.cd hu
    have hval := h.value hφ hA hu
    simp only [hfb] at hval
    unfold Space.coordsCd at k1
    obtain ⟨ind, k3, k4⟩ := Option.bind_eq_some_iff.1 k1
    unfold Space.fromIndex at k4
    obtain ⟨i, k5, k6⟩ := Option.bind_eq_some_iff.1 k4
    unfold nfCd nfIndex
    rw [k3, Option.bind_some, k5, Option.bind_some]
    have hlook : ∀ (n : ℕ) (w : SV), H.vecs[n]? = some w → ∃ y, (rs.map fun y => if content rs > 1 then y.tdiv (content rs) else y)[n]? = some y ∧
        2 * |content rs * y| ≤ q ∧ ∀ a : Fin H.rk → ℤ, SRep True w a → ((content rs * y : ℤ) : ZMod q) = ∑ j : Fin H.rk, ((a j : ℤ) : ZMod q) * ((b.getD j 0 : ℤ) : ZMod q) := by
      intro n w hw
      obtain ⟨hn, rfl⟩ := List.getElem?_eq_some_iff.1 hw
      have hn' : n < rs.length := by rw [← hrs.length_eq]; exact hn
      refine ⟨_, by rw [List.getElem?_map, List.getElem?_eq_getElem hn', Option.map_some], ?_, fun a ha => ?_⟩
      · rw [hco _ (List.getElem_mem hn')]
        exact ((List.forall₂_iff_get.1 hrs).2 n hn hn').1
      · rw [hco _ (List.getElem_mem hn')]
        exact ((List.forall₂_iff_get.1 hrs).2 n hn hn').2 a ha
    generalize (rs.map fun y => if content rs > 1 then y.tdiv (content rs) else y) = cs at hlook ⊢
    split_ifs at k6 ⊢ with h1 h2
    · obtain ⟨y, y1, y3, y2⟩ := hlook _ _ k6
      exact ⟨y, y1, by rw [y2 _ k2, hval], y3⟩
    · obtain ⟨w, w1, w2⟩ := Option.map_eq_some_iff.1 k6
      obtain ⟨y, y1, y3, y2⟩ := hlook _ _ w1
      obtain ⟨a, ha, -⟩ := hvecs w (List.mem_of_getElem? w1)
      refine ⟨-y, by rw [y1]; rfl, ?_, by rw [mul_neg, abs_neg]; exact y3⟩
      rw [mul_neg, Int.cast_neg, y2 a ha, hval, ← Finset.sum_neg_distrib]
      have hneg : SRep True v ((-1 : ℤ) • a) := by
        rw [← w2]
        exact Smat.Props.srep_imul ha (-1) (fun _ => by norm_num)
      refine Finset.sum_congr rfl fun j _ => ?_
      have : x c d j = -a j := by rw [← k2.val j, hneg.val j]; simp
      rw [this]
      push_cast
      ring
    · refine ⟨0, rfl, ?_, by simpa using hq0.le⟩
      rw [hval]
      symm
      simp only [mul_zero, Int.cast_zero]
      refine Finset.sum_eq_zero fun j _ => ?_
      have hz : SRep True v (0 : Fin H.rk → ℤ) := by
        rw [← Option.some.inj k6]
        exact Smat.Props.srep_zero _
      have : x c d j = 0 := by rw [← k2.val j, hz.val j]; rfl
      rw [this]
      simp
  · intro hg e he
    by_cases hne : rs = []
    · exact Or.inr (by rw [hne]; rfl)
    · left
      have h1 : content rs * e ∣ content rs := hgg hne _ fun y hy => by
        obtain ⟨z, hz⟩ := he _ (List.mem_map.2 ⟨y, hy, rfl⟩)
        rw [← hco y hy, hz, ← mul_assoc]
        exact dvd_mul_right _ _
      obtain ⟨z, hz⟩ := h1
      have h2 : e * z = 1 := mul_left_cancel₀ hg (by rw [← mul_assoc, ← hz, mul_one])
      exact IsUnit.of_mul_eq_one _ h2

/-- **C106** (coordinates).  For a space constructed for a level, and any vector `b` of values at the free generators, the coordinates
found by `find_coords_plus_minus` times the content are the values modulo `q` of the modular symbol with the values `b`, reduced
modulo `q`.  The coordinates have no common divisor. -/
theorem C106_coords {q : ℕ} [Fact q.Prime] {N : ℤ} (hN : 1 < N) {ps : List ℤ} (hps : Spec.IsPrimeDivisorList N ps)
    {S : Symbdata} (hS : Symbdata.make N ps = some S) {pf : ℤ} (hpf : pf = 0 ∨ pf = 1 ∨ pf = -1) (hq : 3 < q)
    (X : Marith.XGcd) (t : T) {sparse : Elim.St → Bool} (hsp : SparseOk sparse) {rref : Mat.M → Mat.Ech}
    (hRr : RrefOk q rref) {fuel : ℕ} (hf : (S.nsymb.toNat + 11) * (2 * S.nsymb.toNat + 11) ≤ fuel) :
    ∃ H th, make X t q sparse rref fuel S pf = some (H, th) ∧ ∃ m : Fin H.rk → R × R, H.freemods = some (List.ofFn m) ∧
      ∀ b : List ℤ, b.length = H.rk → (∀ x ∈ b, |x| < q) → ∃ coords g, findCoords t q H b = some (coords, g) ∧
        (∃ f φ, IsModSym N pf f ∧ IsManin N pf φ ∧ Assoc f φ ∧ (∀ j : Fin H.rk, f (rc (m j).1) (rc (m j).2) = ((b.getD j 0 : ℤ) : ZMod q)) ∧
          ∀ c d : ℤ, Unimod N c d → ∃ v, nfCd H coords c d = some v ∧ ((g * v : ℤ) : ZMod q) = φ c d ∧ 2 * |g * v| ≤ q) ∧
        (g ≠ 0 → ∀ e : ℤ, (∀ x ∈ coords, e ∣ x) → IsUnit e ∨ coords = []) := by
  obtain ⟨H, th, e, x, gen, h⟩ := SpaceOk.of_make hN hps hS hpf hq X t hsp hRr hf
  refine ⟨H, th, e, _, h.freemods, fun b hb hbq => ?_⟩
  obtain ⟨f, hfm, hfb⟩ := h.basis.exist fun j => ((b.getD j 0 : ℤ) : ZMod q)
  obtain ⟨φ, hφ, hA⟩ := exists_manin (by omega) hfm
  obtain ⟨coords, g, e1, -, e3, e4⟩ := coords_core h (make_vecs hN hps hS hq X t hsp hRr hf e) t hb hbq
  exact ⟨coords, g, e1, ⟨f, φ, hfm, hφ, hA, hfb, e3 f φ hφ hA hfb⟩, e4⟩

/-- a vector of values which is an eigenvector of the matrix of `T_p` belongs to a modular symbol which is an eigenvector of `T_p` -/
theorem eigen_of_mat {q : ℕ} [Fact q.Prime] {N pf : ℤ} {k : ℕ} {m : Fin k → R × R} (hb : IsBasis q N pf m) {A : Fin k → Fin k → ℤ} {p : ℕ}
    (hA : IsMatOf q N pf m A (heckeT p)) {f : OnePoint ℚ → OnePoint ℚ → ZMod q} (hf : IsModSym N pf f) {b : Fin k → ℤ} {a : ℤ}
    (hfb : ∀ j, f (rc (m j).1) (rc (m j).2) = (b j : ZMod q)) (he : ∀ j, (q : ℤ) ∣ ∑ i, A j i * b i - a * b j) : IsEigen p f (a : ZMod q) := by
  have hg : IsModSym N pf fun α β => (a : ZMod q) * f α β :=
    ⟨fun α β γ => by rw [← mul_add, hf.add], fun a' b c d h1 h2 α β => by rw [hf.inv a' b c d h1 h2],
      fun h α β => by rw [hf.sign h]; ring⟩
  obtain ⟨h1, h2⟩ := hA f hf
  have := hb.unique _ _ h1 hg fun j => by
    rw [h2 j]
    simp only [hfb]
    have h3 := (ZMod.intCast_zmod_eq_zero_iff_dvd _ q).2 (he j)
    push_cast at h3
    exact sub_eq_zero.1 h3
  exact fun α β => congrFun (congrFun this α) β

/-- **C106** (part, eigenvectors).  Let the space be constructed for the level `N`, and let `b` be a primitive vector which is an eigenvector
with eigenvalue `a` of the matrix computed by `newheckeop(p)`, modulo `q`, `p` odd.  Then `find_coords_plus_minus` followed by `apvec(p)`, with
`j0` the number of any component of `b` which is not zero, returns `a`, when `a` satisfies the bound of Hasse and the coordinates are small
in comparison with `q`. -/
theorem C106_eigen_partial {q : ℕ} [Fact q.Prime] {N : ℤ} (hN : 1 < N) {ps : List ℤ} (hps : Spec.IsPrimeDivisorList N ps)
    {S : Symbdata} (hS : Symbdata.make N ps = some S) {pf : ℤ} (hpf : pf = 0 ∨ pf = 1 ∨ pf = -1) (hq : 3 < q)
    (X : Marith.XGcd) (t : T) {sparse : Elim.St → Bool} (hsp : SparseOk sparse) {rref : Mat.M → Mat.Ech}
    (hRr : RrefOk q rref) {fuel : ℕ} (hf : (S.nsymb.toNat + 11) * (2 * S.nsymb.toNat + 11) ≤ fuel) :
    ∃ H th, make X t q sparse rref fuel S pf = some (H, th) ∧ ∀ b : List ℤ, b.length = H.rk → (∀ x ∈ b, 2 * |x| < q) →
      (∀ e : ℤ, (∀ x ∈ b, e ∣ x) → IsUnit e) → ∀ p : ℕ, p.Prime → p ≠ 2 → ¬(p : ℤ) ∣ N → ∀ a : ℤ, a ^ 2 ≤ 4 * p →
      (∃ M, ∃ A : Fin H.rk → Fin H.rk → ℤ, H.newheckeop p true false = some M ∧ (∀ i j : Fin H.rk, M.entry (i + 1) (j + 1) = some (A i j)) ∧
        ∀ j, (q : ℤ) ∣ ∑ i, A j i * b.getD i 0 - a * b.getD j 0) →
      ∃ coords, findCoords t q H b = some (coords, 1) ∧ ∀ B : ℤ, (∀ x ∈ coords, |x| ≤ B) → ((heilDefault p).length + |a|) * B < q →
        ∀ j0 : ℕ, 0 < j0 → j0 ≤ H.rk → b.getD (j0 - 1) 0 ≠ 0 → ∀ aq, apvec H 1 ps p [⟨coords, 1, j0, b.getD (j0 - 1) 0, aq⟩] = some [a] := by
  obtain ⟨H, th, e, x, gen, h⟩ := SpaceOk.of_make hN hps hS hpf hq X t hsp hRr hf
  refine ⟨H, th, e, fun b hb hbq hprim p hp hp2 hpN a ha ⟨M, A, hM, hMA, hMe⟩ => ?_⟩
  obtain ⟨f, hfm, hfb⟩ := h.basis.exist fun j => ((b.getD j 0 : ℤ) : ZMod q)
  obtain ⟨φ, hφ, hA⟩ := exists_manin (by omega) hfm
  have hbq' : ∀ x ∈ b, |x| < q := fun x hx => by have := hbq x hx; have := abs_nonneg x; omega
  obtain ⟨coords, g, e1, hg0, e3, -⟩ := coords_core h (make_vecs hN hps hS hq X t hsp hRr hf e) t hb hbq'
  have e3 := e3 f φ hφ hA hfb
  -- the values at the generators
  have hgen : ∀ j : Fin H.rk, ∃ v, nfCd H coords (gen j).1 (gen j).2 = some v ∧ g * v = b.getD j 0 := by
    intro j
    obtain ⟨v, k1, k2, k3⟩ := e3 _ _ (h.coords.unimod j)
    refine ⟨v, k1, ?_⟩
    rw [(modsym_spec hφ hA h.lev (h.coords.unimod j)).2.2, hfb j] at k2
    have hd : (q : ℤ) ∣ g * v - b.getD j 0 := (ZMod.intCast_zmod_eq_zero_iff_dvd _ q).1 (by rw [Int.cast_sub, k2, sub_self])
    have hbj : 2 * |b.getD j 0| < q := hbq _ (by
      have hj : (j : ℕ) < b.length := by rw [hb]; exact j.2
      rw [List.getD_eq_getElem _ _ hj]
      exact List.getElem_mem hj)
    exact sub_eq_zero.1 (Int.eq_zero_of_abs_lt_dvd hd (by have := abs_sub (g * v) (b.getD j 0); omega))
  have hg1 : g = 1 := by
    have : IsUnit g := hprim g fun y hy => by
      obtain ⟨i, hi, rfl⟩ := List.getElem_of_mem hy
      obtain ⟨v, -, k2⟩ := hgen ⟨i, by rw [← hb]; exact hi⟩
      rw [List.getD_eq_getElem _ _ hi] at k2
      exact ⟨v, k2.symm⟩
    rcases Int.isUnit_iff.1 this with h1 | h1
    · exact h1
    · omega
  subst hg1
  refine ⟨coords, e1, fun B hB hBq j0 hj0 hj1 hbj aq => ?_⟩
  -- the operator
  obtain ⟨H', th', e', m', k1, k2, k3⟩ := C78_newheckeop hN hps hS hpf hq X t hsp hRr hf
  rw [e] at e'
  obtain ⟨rfl, rfl⟩ := Prod.mk.inj (Option.some.inj e')
  rw [h.freemods] at k1
  have hm := List.ofFn_injective (Option.some.inj k1)
  subst hm
  obtain ⟨M', A', b1, b2, b3, -⟩ := k3 p hp hpN true false
  rw [hM] at b1
  obtain rfl := Option.some.inj b1
  have hAA : A = A' := by
    funext i j
    have := b2 i j
    rw [hMA i j] at this
    simpa using this
  subst hAA
  have heig : IsEigen p f (a : ZMod q) := eigen_of_mat h.basis b3 hfm (b := fun j => b.getD j 0) hfb hMe
  have hB0 : 0 ≤ B := by
    obtain ⟨v, v1, v2⟩ := hgen ⟨j0 - 1, by omega⟩
    by_contra hneg
    push Not at hneg
    have : coords = [] := List.eq_nil_iff_forall_not_mem.2 fun y hy => by have := hB y hy; have := abs_nonneg y; omega
    rw [this] at v1
    unfold nfCd nfIndex at v1
    obtain ⟨k, -, v1⟩ := Option.bind_eq_some_iff.1 v1
    obtain ⟨i, -, v1⟩ := Option.bind_eq_some_iff.1 v1
    split_ifs at v1
    · simp at v1
    · simp at v1
    · rw [← Option.some.inj v1] at v2
      exact hbj (by rw [← v2]; simp)
  refine C106_apvec_mod_partial (q := q) (pf := pf) hN h.level one_ne_zero hp hp2 hpN (.cons ?_ .nil) ps
  obtain ⟨i, f1, f2⟩ := h.free ⟨j0 - 1, by omega⟩
  obtain ⟨v, v1, v2⟩ := hgen ⟨j0 - 1, by omega⟩
  exact {
    eig := ⟨f, φ, hfm, hφ, hA, fun c d hu => by
      obtain ⟨v, w1, w2, -⟩ := e3 c d hu
      exact ⟨v, w1, by rw [← w2, one_mul]⟩, heig⟩
    small := ⟨B, hB0, hB, hBq⟩
    hasse := ha
    j0 := hj0
    gen := ⟨i, gen ⟨j0 - 1, by omega⟩, v, f1, f2, h.coords.unimod _, v1, by simpa using v2⟩
    fac := hbj
    cont := dvd_rfl }

/-! ### `find_jlist` -/

theorem allNonzero_spec {j : ℕ} (hj : 0 < j) : ∀ {vs : List (List ℤ)}, (∀ v ∈ vs, j ≤ v.length) →
    ∃ b, allNonzero j vs = some b ∧ (b = true ↔ ∀ v ∈ vs, v.getD (j - 1) 0 ≠ 0)
  | [], _ => ⟨true, rfl, by simp⟩
  | v :: vs, h => by
    obtain ⟨b, e, hb⟩ := allNonzero_spec hj (vs := vs) fun v hv => h v (List.mem_cons_of_mem _ hv)
    have hl := h v List.mem_cons_self
    have hlt : j - 1 < v.length := by omega
    unfold allNonzero at1
    rw [if_neg hj.ne', List.getElem?_eq_getElem hlt, Option.bind_some]
    by_cases h0 : v[j - 1] = 0
    · rw [if_neg (by simpa using h0)]
      refine ⟨false, rfl, ?_⟩
      simp [List.getElem?_eq_getElem hlt, h0]
    · rw [if_pos h0]
      refine ⟨b, e, ?_⟩
      rw [hb]
      simp [List.getElem?_eq_getElem hlt, h0]

theorem commonJ_spec {vs : List (List ℤ)} : ∀ (n j : ℕ), 0 < j → (∀ v ∈ vs, j + n ≤ v.length + 1) →
    ∃ r, commonJ vs n j = some r ∧ (∀ k, r = some k → j ≤ k ∧ k < j + n ∧ ∀ v ∈ vs, v.getD (k - 1) 0 ≠ 0) ∧
      (r = none → ∀ k, j ≤ k → k < j + n → ∃ v ∈ vs, v.getD (k - 1) 0 = 0)
  | 0, j, _, _ => ⟨none, rfl, by simp, fun _ k h1 h2 => by omega⟩
  | n + 1, j, hj, h => by
    obtain ⟨b, e, hb⟩ := allNonzero_spec hj (vs := vs) fun v hv => by have := h v hv; omega
    unfold commonJ
    rw [e, Option.bind_some]
    cases b with
    | true =>
      refine ⟨some j, rfl, ?_, by simp⟩
      intro k hk
      obtain rfl := Option.some.inj hk
      exact ⟨le_rfl, by omega, hb.1 rfl⟩
    | false =>
      obtain ⟨r, e1, h1, h2⟩ := commonJ_spec (vs := vs) n (j + 1) (by omega) fun v hv => by have := h v hv; omega
      refine ⟨r, e1, ?_, ?_⟩
      · intro k hk
        obtain ⟨h3, h4, h5⟩ := h1 k hk
        exact ⟨by omega, by omega, h5⟩
      · intro hr k h3 h4
        rcases Nat.lt_or_ge j k with h5 | h5
        · exact h2 hr k (by omega) (by omega)
        · obtain rfl : k = j := by omega
          by_contra hcon
          push Not at hcon
          exact Bool.false_ne_true (hb.2 hcon)

theorem firstJ_spec : ∀ (v : List ℤ) (j : ℕ), (∃ x ∈ v, x ≠ 0) → ∃ k, firstJ v j = some (j + k) ∧ k < v.length ∧ v.getD k 0 ≠ 0
  | [], _, h => by simp at h
  | x :: v, j, h => by
    unfold firstJ
    split_ifs with hx
    · obtain ⟨y, hy, hy0⟩ := h
      have hyv : y ∈ v := by
        rcases List.mem_cons.1 hy with rfl | h
        · exact absurd hx hy0
        · exact h
      obtain ⟨k, e, h1, h2⟩ := firstJ_spec v (j + 1) ⟨y, hyv, hy0⟩
      exact ⟨k + 1, by rw [e]; congr 1; omega, by simp; omega, by simpa using h2⟩
    · exact ⟨0, rfl, by simp, by simpa using hx⟩

/-- **C106** (choice of the symbols, part).  For `sign` different from -1 and vectors `bplus` of length the dimension, none of them zero,
`find_jlist` finds for each form a `j0` between 1 and the dimension, and `fac` is the component of `bplus` there, not zero.  The full
statement is for all signs; for -1 it is false, see `C106_jlist_minus`. -/
theorem C106_jlist_partial {sign : ℤ} (hs : sign ≠ -1) {dim : ℕ} {fs : List (List ℤ × List ℤ)} (hl : ∀ f ∈ fs, f.1.length = dim)
    (h0 : ∀ f ∈ fs, ∃ x ∈ f.1, x ≠ 0) :
    ∃ r, findJlist sign dim fs = some r ∧ List.Forall₂ (fun f (jf : ℕ × ℤ) => 1 ≤ jf.1 ∧ jf.1 ≤ dim ∧ f.1.getD (jf.1 - 1) 0 = jf.2 ∧ jf.2 ≠ 0) fs r := by
  unfold findJlist
  simp only [if_neg hs]
  have hat : ∀ (v : List ℤ) (j : ℕ), 1 ≤ j → j ≤ v.length → at1 v j = some (v.getD (j - 1) 0) := by
    intro v j h1 h2
    unfold at1
    have hlt : j - 1 < v.length := by omega
    rw [if_neg (by omega), List.getElem?_eq_getElem hlt, List.getD_eq_getElem _ _ hlt]
  obtain ⟨r, e, h1, -⟩ := commonJ_spec (vs := fs.map fun f => f.1) dim 1 one_pos (by
    intro v hv
    obtain ⟨f, hf, rfl⟩ := List.mem_map.1 hv
    rw [hl f hf]
    omega)
  rw [e, Option.bind_some]
  cases r with
  | some j =>
    obtain ⟨h2, h3, h4⟩ := h1 j rfl
    apply mapM_some_all
    intro f hf
    refine ⟨(j, f.1.getD (j - 1) 0), by rw [hat _ _ h2 (by rw [hl f hf]; omega)]; rfl, h2, by omega, rfl, ?_⟩
    exact h4 _ (List.mem_map.2 ⟨f, hf, rfl⟩)
  | none =>
    apply mapM_some_all
    intro f hf
    obtain ⟨k, e1, h2, h3⟩ := firstJ_spec f.1 1 (h0 f hf)
    rw [hl f hf] at h2
    refine ⟨(1 + k, f.1.getD (1 + k - 1) 0), ?_, by omega, by omega, rfl, ?_⟩
    · rw [e1, Option.bind_some, hat _ _ (by omega) (by rw [hl f hf]; omega)]
      rfl
    · rw [Nat.add_sub_cancel_left]
      exact h3

end Eclib.Newf
