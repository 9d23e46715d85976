import Verif.Hom.Chain
import Verif.Hom.Props

/-!
# C76: coordinates of modular symbols
-/

set_option linter.unusedSectionVars false

namespace Eclib.Hom

open Ratl (R)
open Symb (Symbdata)
open Symb.SymbSpec Symb.CuspSpec ManinSpec
open Svec (T SV)
open Smat.Props (SRep)
open Elim (RrefOk SparseOk)

/-- what is known about a space which was constructed (C74) -/
structure SpaceOk (q : ℕ) [Fact q.Prime] (N pf : ℤ) (H : Space) (x : ℤ → ℤ → Fin H.rk → ℤ) (gen : Fin H.rk → ℤ × ℤ) : Prop where
  lev : 1 < N
  level : H.S.N = N
  len : H.free.length = H.rk
  coords : IsCoords q N pf x gen
  cd : ∀ {c d : ℤ}, Unimod N c d → ∃ v, H.coordsCd c d = some v ∧ SRep True v (x c d)
  free : ∀ j : Fin H.rk, ∃ i : ℕ, H.free[(j : ℕ)]? = some i ∧ H.S.symbol i = some (gen j)
  sgn : H.pf = pf
  mod : Symb.ModOK N H.S.toModdata

namespace ManinSpec

/-- The vector `a` contains coordinates of a linear form on modular symbols: its value at `f` is the linear
combination with coefficients `a` of the values at the symbols `m j`. -/
def IsCombo (q : ℕ) [Fact q.Prime] (N pf : ℤ) {k : ℕ} (m : Fin k → R × R) (a : Fin k → ℤ)
    (F : (OnePoint ℚ → OnePoint ℚ → ZMod q) → ZMod q) : Prop :=
  ∀ f, IsModSym N pf f → F f = ∑ j, ((a j : ℤ) : ZMod q) * f (rc (m j).1) (rc (m j).2)

/-- The modular symbols `m j` are a basis modulo `q`: a modular symbol has any given values at them, and is
determined by these values. -/
structure IsBasis (q : ℕ) [Fact q.Prime] (N pf : ℤ) {k : ℕ} (m : Fin k → R × R) : Prop where
  cusp : ∀ j, IsCusp (m j).1 ∧ IsCusp (m j).2
  exist : ∀ w : Fin k → ZMod q, ∃ f, IsModSym N pf f ∧ ∀ j, f (rc (m j).1) (rc (m j).2) = w j
  unique : ∀ f f' : OnePoint ℚ → OnePoint ℚ → ZMod q, IsModSym N pf f → IsModSym N pf f' →
    (∀ j, f (rc (m j).1) (rc (m j).2) = f' (rc (m j).1) (rc (m j).2)) → f = f'

end ManinSpec

section

variable {q : ℕ} [Fact q.Prime] {N pf : ℤ} {H : Space} {x : ℤ → ℤ → Fin H.rk → ℤ} {gen : Fin H.rk → ℤ × ℤ}

theorem mapM_ofFn {α β : Type*} {k : ℕ} (g : α → Option β) (l : List α) (y : Fin k → β) (hl : l.length = k)
    (h : ∀ j : Fin k, ∃ a, l[(j : ℕ)]? = some a ∧ g a = some (y j)) : l.mapM g = some (List.ofFn y) := by
  induction l generalizing k with
  | nil => obtain rfl := hl; rfl
  | cons a l ih =>
    obtain rfl := hl
    rw [List.mapM_cons]
    obtain ⟨a', e1, e2⟩ := h ⟨0, by simp⟩
    simp only [List.getElem?_cons_zero, Option.some.injEq] at e1
    subst e1
    have e3 := ih (k := l.length) (fun j => y j.succ) rfl (by
      intro j
      obtain ⟨a', e1, e2⟩ := h j.succ
      exact ⟨a', by simpa using e1, e2⟩)
    rw [e2, e3]
    simp [List.ofFn_succ]

theorem SpaceOk.of_make {N : ℤ} (hN : 1 < N) {ps : List ℤ} (hps : Spec.IsPrimeDivisorList N ps)
    {S : Symbdata} (hS : Symbdata.make N ps = some S) {pf : ℤ} (hpf : pf = 0 ∨ pf = 1 ∨ pf = -1) (hq : 3 < q)
    (X : Marith.XGcd) (t : T) {sparse : Elim.St → Bool} (hsp : SparseOk sparse) {rref : Mat.M → Mat.Ech}
    (hRr : RrefOk q rref) {fuel : ℕ} (hf : (S.nsymb.toNat + 11) * (2 * S.nsymb.toNat + 11) ≤ fuel) :
    ∃ H th, make X t q sparse rref fuel S pf = some (H, th) ∧ ∃ x gen, SpaceOk q N pf H x gen := by
  have hok := Symb.Props.ok_of_make hN hps hS
  obtain ⟨H, th, e, hHS, hpf', h1, -, x, gen, h2, h3, h4⟩ := make_spec hN hok hpf hq X t hsp hRr hf
  refine ⟨H, th, e, x, gen, hN, by rw [hHS]; exact hok.mod.hN, h1, h2, fun hu => ?_, fun j => ?_, hpf', by rw [hHS]; exact hok.mod⟩
  · obtain ⟨v, e1, e2, -⟩ := h3 hu
    exact ⟨v, e1, e2⟩
  · rw [hHS]
    exact h4 j

theorem SpaceOk.freemods (h : SpaceOk q N pf H x gen) : H.freemods = some (List.ofFn fun j => modsym (gen j)) := by
  unfold Space.freemods
  apply mapM_ofFn _ _ _ h.len
  intro j
  obtain ⟨i, e1, e2⟩ := h.free j
  exact ⟨i, e1, by rw [e2]; rfl⟩

theorem SpaceOk.value (h : SpaceOk q N pf H x gen) {f : OnePoint ℚ → OnePoint ℚ → ZMod q} {φ : ℤ → ℤ → ZMod q}
    (hφ : IsManin N pf φ) (hA : Assoc f φ) {c d : ℤ} (hu : Unimod N c d) :
    φ c d = ∑ j, ((x c d j : ℤ) : ZMod q) * f (rc (modsym (gen j)).1) (rc (modsym (gen j)).2) := by
  rw [h.coords.all φ hφ hu]
  apply Finset.sum_congr rfl
  intro j _
  rw [(modsym_spec hφ hA h.lev (h.coords.unimod j)).2.2]

theorem SpaceOk.basis (h : SpaceOk q N pf H x gen) : IsBasis q N pf fun j => modsym (gen j) := by
  have hN : (0 : ℤ) < N := by have := h.lev; omega
  have hex : ∀ w : Fin H.rk → ZMod q, ∃ f, IsModSym N pf f ∧
      ∀ j, f (rc (modsym (gen j)).1) (rc (modsym (gen j)).2) = w j := by
    intro w
    obtain ⟨f, hf, hA⟩ := exists_modsym (h.coords.form w)
    refine ⟨f, hf, fun j => ?_⟩
    rw [← (modsym_spec (h.coords.form w) hA h.lev (h.coords.unimod j)).2.2]
    have : ∀ i, ((x (gen j).1 (gen j).2 i : ℤ) : ZMod q) * w i = if j = i then w i else 0 := by
      intro i
      rw [h.coords.unit]
      split_ifs <;> simp
    simp [this]
  refine ⟨fun j => ?_, hex, ?_⟩
  · obtain ⟨f, hf, -⟩ := hex 0
    obtain ⟨φ, hφ, hA⟩ := exists_manin hN hf
    have := modsym_spec hφ hA h.lev (h.coords.unimod j)
    exact ⟨this.1, this.2.1⟩
  · intro f f' hf hf' he
    obtain ⟨φ, hφ, hA⟩ := exists_manin hN hf
    obtain ⟨φ', hφ', hA'⟩ := exists_manin hN hf'
    funext α β
    refine assoc_unique hf hf' hA (fun a b c d hd => ?_) α β
    rw [← hA' a b c d hd, h.value hφ hA (unimod_of_det hd), h.value hφ' hA' (unimod_of_det hd)]
    apply Finset.sum_congr rfl
    intro j _
    rw [he]

/-- adding the coordinates of a list of M-symbols -/
theorem SpaceOk.addList (h : SpaceOk q N pf H x gen) (l : List (ℤ × ℤ)) : ∀ {v : SV} {a : Fin H.rk → ℤ}, SRep True v a →
    (∀ s ∈ l, Unimod N s.1 s.2) → ∃ v', H.addList v l = some v' ∧ SRep True v' (a + (l.map fun s => x s.1 s.2).sum) := by
  induction l with
  | nil => intro v a hv _; exact ⟨v, rfl, by simpa using hv⟩
  | cons s l ih =>
    intro v a hv hl
    obtain ⟨w, e1, e2⟩ := h.cd (hl s List.mem_cons_self)
    obtain ⟨v', e3, e4⟩ := ih (Smat.Props.srep_iadd hv e2) fun s hs => hl s (List.mem_cons_of_mem _ hs)
    refine ⟨v', ?_, by rw [List.map_cons, List.sum_cons, ← add_assoc]; exact e4⟩
    unfold Space.addList at e3 ⊢
    rw [List.foldlM_cons]
    unfold Space.addCd
    rw [e1]
    exact e3

theorem SpaceOk.combo (h : SpaceOk q N pf H x gen) {f : OnePoint ℚ → OnePoint ℚ → ZMod q} {φ : ℤ → ℤ → ZMod q}
    (hφ : IsManin N pf φ) (hA : Assoc f φ) (l : List (ℤ × ℤ)) (hl : ∀ s ∈ l, Unimod N s.1 s.2) :
    lsum φ l = ∑ j, ((((l.map fun s => x s.1 s.2).sum j : ℤ)) : ZMod q) *
      f (rc (modsym (gen j)).1) (rc (modsym (gen j)).2) := by
  induction l with
  | nil => simp [lsum]
  | cons s l ih =>
    rw [lsum_cons, ih fun s hs => hl s (List.mem_cons_of_mem _ hs), h.value hφ hA (hl s List.mem_cons_self),
      ← Finset.sum_add_distrib]
    apply Finset.sum_congr rfl
    intro j _
    rw [List.map_cons, List.sum_cons, Pi.add_apply]
    push_cast
    ring

theorem SpaceOk.coordsRat (h : SpaceOk q N pf H x gen) {nn dd : ℤ} (hnd : nn ≠ 0 ∨ dd ≠ 0) :
    ∃ v a, H.coordsRat nn dd = some v ∧ SRep True v a ∧
      IsCombo q N pf (fun j => modsym (gen j)) a fun f => f (cusp 0 1) (cusp nn dd) := by
  have hN : (0 : ℤ) < N := by have := h.lev; omega
  obtain ⟨f0, hf0, -⟩ := h.basis.exist 0
  obtain ⟨φ0, hφ0, hA0⟩ := exists_manin hN hf0
  have hu : ∀ s ∈ ((0, 1) :: cf 0 1 nn dd : List (ℤ × ℤ)), Unimod N s.1 s.2 := by
    intro s hs
    obtain ⟨y, z, h1⟩ := (addRat_list hf0 hA0 hnd).2 s hs
    exact unimod_of_det h1
  obtain ⟨v, e1, e2⟩ := h.addList _ (Smat.Props.srep_zero H.rk) hu
  refine ⟨v, _, e1, e2, fun f hf => ?_⟩
  obtain ⟨φ, hφ, hA⟩ := exists_manin hN hf
  show f _ _ = _
  rw [← (addRat_list hf hA hnd).1, h.combo hφ hA _ hu, zero_add]

theorem SpaceOk.coordsSym (h : SpaceOk q N pf H x gen) {m : R × R} (h1 : IsCusp m.1) (h2 : IsCusp m.2) :
    ∃ v a, H.coordsSym m = some v ∧ SRep True v a ∧
      IsCombo q N pf (fun j => modsym (gen j)) a fun f => f (rc m.1) (rc m.2) := by
  have hN : (0 : ℤ) < N := by have := h.lev; omega
  obtain ⟨f0, hf0, -⟩ := h.basis.exist 0
  obtain ⟨φ0, hφ0, hA0⟩ := exists_manin hN hf0
  have hu : ∀ s ∈ symList m.1 m.2, Unimod N s.1 s.2 := by
    intro s hs
    obtain ⟨y, z, h1⟩ := (symList_spec hf0 hφ0 hA0 h1 h2).2 s hs
    exact unimod_of_det h1
  obtain ⟨v, e1, e2⟩ := h.addList _ (Smat.Props.srep_zero H.rk) hu
  refine ⟨v, _, e1, e2, fun f hf => ?_⟩
  obtain ⟨φ, hφ, hA⟩ := exists_manin hN hf
  show f _ _ = _
  rw [← (symList_spec hf hφ hA h1 h2).1, h.combo hφ hA _ hu, zero_add]

end

/-- **C76.**  The modular symbols `freemods` are a basis modulo the prime `q` of the modular symbols for
`Γ₀(N)` (with the given sign), and `coords` computes the coordinates with respect to it of `{0, nn/dd}` and of
any modular symbol between two cusps. -/
theorem C76_modsym {q : ℕ} [Fact q.Prime] {N : ℤ} (hN : 1 < N) {ps : List ℤ} (hps : Spec.IsPrimeDivisorList N ps)
    {S : Symbdata} (hS : Symbdata.make N ps = some S) {pf : ℤ} (hpf : pf = 0 ∨ pf = 1 ∨ pf = -1) (hq : 3 < q)
    (X : Marith.XGcd) (t : T) {sparse : Elim.St → Bool} (hsp : SparseOk sparse) {rref : Mat.M → Mat.Ech}
    (hRr : RrefOk q rref) {fuel : ℕ} (hf : (S.nsymb.toNat + 11) * (2 * S.nsymb.toNat + 11) ≤ fuel) :
    ∃ H th, make X t q sparse rref fuel S pf = some (H, th) ∧ ∃ m : Fin H.rk → R × R,
      H.freemods = some (List.ofFn m) ∧ IsBasis q N pf m ∧
      (∀ nn dd : ℤ, nn ≠ 0 ∨ dd ≠ 0 → ∃ v a, H.coordsRat nn dd = some v ∧ SRep True v a ∧
        IsCombo q N pf m a fun f => f (cusp 0 1) (cusp nn dd)) ∧
      ∀ al be : R, IsCusp al → IsCusp be → ∃ v a, H.coordsSym (al, be) = some v ∧ SRep True v a ∧
        IsCombo q N pf m a fun f => f (rc al) (rc be) := by
  obtain ⟨H, th, e, x, gen, h⟩ := SpaceOk.of_make hN hps hS hpf hq X t hsp hRr hf
  exact ⟨H, th, e, _, h.freemods, h.basis, fun nn dd hnd => h.coordsRat hnd, fun al be h1 h2 => h.coordsSym h1 h2⟩

/-! ### examples -/

/-- the hypotheses are met at the level 11 -/
example : ∃ S H th, Symbdata.make 11 [11] = some S ∧
    make Marith.Props.xgcd0 .int (1073741789 : ℕ) (fun _ => true) (Mat.echmodp Marith.Props.xgcd0 .int (1073741789 : ℕ))
      ((S.nsymb.toNat + 11) * (2 * S.nsymb.toNat + 11)) S 1 = some (H, th) ∧
    ∃ m : Fin H.rk → R × R, H.freemods = some (List.ofFn m) ∧ ∀ j, IsCusp (m j).1 ∧ IsCusp (m j).2 := by
  have : Fact (Nat.Prime 1073741789) := ⟨Xmod.Props.P_prime⟩
  obtain ⟨S, hS, _⟩ := Symb.specials_spec (by norm_num) ps11
  obtain ⟨H, th, h, m, h1, h2, _⟩ := C76_modsym (q := 1073741789) (by norm_num) ps11 hS (pf := 1) (by norm_num) (by norm_num)
    Marith.Props.xgcd0 .int (sparse := fun _ => true) (fun _ _ => rfl) (Elim.rrefOk_echmodp _ .int) le_rfl
  exact ⟨S, H, th, hS, h, m, h1, h2.cusp⟩

/-- the space of level 11 without sign modulo 7 -/
def ex11 : Option Space := ((Symbdata.make 11 [11]).bind fun S =>
  make Marith.Props.xgcd0 .int 7 (fun _ => true) (Mat.echmodp Marith.Props.xgcd0 .int 7) 805 S 0).map (·.1)

/-- the basis -/
example : (ex11.bind Space.freemods) = some [(⟨0, 1⟩, ⟨1, 0⟩), (⟨0, 1⟩, ⟨1, 3⟩), (⟨0, 1⟩, ⟨1, 4⟩)] := by decide +kernel

/-- the coordinates of `{0, 2/3}`, `{0, 5/11}`, `{0, ∞}` -/
example : (ex11.bind fun H => ([(2, 3), (5, 11), (1, 0)] : List (ℤ × ℤ)).mapM fun s => H.coordsRat s.1 s.2) =
    some [⟨3, [(3, -1)]⟩, ⟨3, [(1, 1), (2, 1), (3, -1)]⟩, ⟨3, [(1, 1)]⟩] := by decide +kernel

end Eclib.Hom
