import Verif.Rank2.GSieve
import Verif.Rank2.Props
import Mathlib.RingTheory.Nakayama
import Mathlib.GroupTheory.FiniteAbelian.Basic
import Mathlib.GroupTheory.Perm.Cycle.Type
import Mathlib.GroupTheory.Torsion

/-!
# C116: the second descent and the points found
-/

namespace Eclib.Rank2

set_option linter.unusedSectionVars false

open WeierstrassCurve
open Eclib.Sift (dl dl_add dl_ne dl_neg)
open Eclib.Sqf (Sq)
open Eclib.Bits

/-- affine coordinates -/
def crd {W : WeierstrassCurve ℚ} : W.toAffine.Point → Option (ℚ × ℚ)
  | .zero => none
  | .some x y _ => some (x, y)

/-! ## `makepoint` -/

theorem mkU {a b : ℚ} (nd : Nd a b) {D d2 x y z : ℤ} (hD : D ≠ 0) (hd : (D : ℚ) * d2 = b) (h0 : ¬(x = 0 ∧ z = 0))
    (hq : (y : ℚ) ^ 2 = D * x ^ 4 + a * x ^ 2 * z ^ 2 + d2 * z ^ 4) :
    ∃ U : (Cu a b).toAffine.Point, IsSquare ((D : ℚ) * dl (Cu a b) 0 U) ∧
      ((z = 0 ∧ U = 0) ∨ (x = 0 ∧ z ≠ 0 ∧ U = pT nd) ∨ (x ≠ 0 ∧ z ≠ 0 ∧ ∃ e, U = pt nd (D * x ^ 2 / z ^ 2) (D * x * y / z ^ 3) e)) := by
  have hD' : (D : ℚ) ≠ 0 := by exact_mod_cast hD
  by_cases hz : z = 0
  · have hx : (x : ℚ) ≠ 0 := by exact_mod_cast fun hx => h0 ⟨hx, hz⟩
    refine ⟨0, ⟨y / x ^ 2, ?_⟩, Or.inl ⟨hz, rfl⟩⟩
    rw [dl_zero]
    rw [hz] at hq
    push_cast at hq
    field_simp
    linear_combination -hq
  · have hz' : (z : ℚ) ≠ 0 := by exact_mod_cast hz
    by_cases hx : x = 0
    · refine ⟨pT nd, ⟨2 * D * (y / z ^ 2), ?_⟩, Or.inr (Or.inl ⟨hx, hz, rfl⟩)⟩
      rw [dl_T, ← hd]
      rw [hx] at hq
      push_cast at hq
      field_simp
      linear_combination (-4) * hq
    · have hx' : (x : ℚ) ≠ 0 := by exact_mod_cast hx
      have e : (D * x * y / z ^ 3 : ℚ) ^ 2 = (D * x ^ 2 / z ^ 2) ^ 3 + a * (D * x ^ 2 / z ^ 2) ^ 2 + b * (D * x ^ 2 / z ^ 2) := by
        rw [← hd]
        field_simp
        linear_combination hq
      refine ⟨pt nd _ _ e, ⟨D * x / z, ?_⟩, Or.inr (Or.inr ⟨hx, hz, e, rfl⟩)⟩
      rw [dl_pt nd (div_ne_zero (mul_ne_zero hD' (pow_ne_zero _ hx')) (pow_ne_zero _ hz'))]
      field_simp

theorem mk_false {a b : ℚ} (nd : Nd a b) {D d2 x y z : ℤ} (hD : D ≠ 0) (hd : (D : ℚ) * d2 = b) (h0 : ¬(x = 0 ∧ z = 0))
    (hq : (y : ℚ) ^ 2 = D * x ^ 4 + a * x ^ 2 * z ^ 2 + d2 * z ^ 4) :
    ∃ U : (Cu a b).toAffine.Point, IsSquare ((D : ℚ) * dl (Cu a b) 0 U) ∧ crd U = makepoint false D d2 x y z := by
  obtain ⟨U, h1, h2⟩ := mkU nd hD hd h0 hq
  refine ⟨U, h1, ?_⟩
  unfold makepoint
  rw [if_neg (by decide)]
  rcases h2 with ⟨hz, rfl⟩ | ⟨hx, hz, rfl⟩ | ⟨hx, hz, e, rfl⟩
  · rw [if_neg (not_not.2 hz)]; rfl
  · rw [if_pos hz, hx]
    show some ((0 : ℚ), (0 : ℚ)) = _
    simp
  · rw [if_pos hz]
    have hz' : (z : ℚ) ≠ 0 := by exact_mod_cast hz
    show some ((_ : ℚ), (_ : ℚ)) = _
    congr 2
    push_cast
    field_simp
    push_cast
    rfl

theorem mk_true {a b a' b' : ℚ} (h : Is a b (1 / 2) a' b') {D d2 x y z : ℤ} (hD : D ≠ 0) (hd : (D : ℚ) * d2 = b)
    (h0 : ¬(x = 0 ∧ z = 0)) (hq : (y : ℚ) ^ 2 = D * x ^ 4 + a * x ^ 2 * z ^ 2 + d2 * z ^ 4) :
    ∃ U : (Cu a b).toAffine.Point, IsSquare ((D : ℚ) * dl (Cu a b) 0 U) ∧ crd (isogHom h U) = makepoint true D d2 x y z := by
  obtain ⟨U, h1, h2⟩ := mkU h.nd hD hd h0 hq
  refine ⟨U, h1, ?_⟩
  unfold makepoint
  rw [if_pos rfl]
  rcases h2 with ⟨hz, rfl⟩ | ⟨hx, hz, rfl⟩ | ⟨hx, hz, e, rfl⟩
  · rw [if_neg (by rw [hz]; simp), map_zero]; rfl
  · rw [if_neg (by rw [hx]; simp)]
    show crd (isog h (pT h.nd)) = none
    rw [isog_T]
    rfl
  · rw [if_pos (mul_ne_zero hx hz)]
    have hD' : (D : ℚ) ≠ 0 := by exact_mod_cast hD
    have hz' : (z : ℚ) ≠ 0 := by exact_mod_cast hz
    have hx' : (x : ℚ) ≠ 0 := by exact_mod_cast hx
    show crd (isog h (pt h.nd _ _ e)) = _
    rw [isog_pt h (div_ne_zero (mul_ne_zero hD' (pow_ne_zero _ hx')) (pow_ne_zero _ hz'))]
    show some ((_ : ℚ), (_ : ℚ)) = _
    rw [← hd]
    congr 2
    · push_cast
      field_simp
    · push_cast
      field_simp

/-! ## the group generated by the points and the torsion -/

section
variable {W : WeierstrassCurve ℚ}

/-- the subgroup generated by the points of a list and the torsion -/
def Hs (W : WeierstrassCurve ℚ) (pts : List (Option (ℚ × ℚ))) : AddSubgroup W.toAffine.Point :=
  AddSubgroup.closure {P | crd P ∈ pts} ⊔ AddCommGroup.torsion W.toAffine.Point

theorem Hs_mono {l l' : List (Option (ℚ × ℚ))} (h : ∀ o ∈ l, o ∈ l') : Hs W l ≤ Hs W l' :=
  sup_le_sup_right (AddSubgroup.closure_mono fun _ hP => h _ hP) _

theorem Hs_mem {l : List (Option (ℚ × ℚ))} {P : W.toAffine.Point} (h : crd P ∈ l) : P ∈ Hs W l :=
  (le_sup_left : _ ≤ Hs W l) (AddSubgroup.subset_closure h)

theorem Hs_tors {l : List (Option (ℚ × ℚ))} {P : W.toAffine.Point} (h : IsOfFinAddOrder P) : P ∈ Hs W l :=
  (le_sup_right : _ ≤ Hs W l) h

/-- the entries are points of infinite order of the curve -/
def Good (W : WeierstrassCurve ℚ) (pts : List (Option (ℚ × ℚ))) : Prop :=
  ∀ o ∈ pts, ∃ P : W.toAffine.Point, crd P = o ∧ ¬ IsOfFinAddOrder P

end

/-- contracts for the searches: the points found are on the quartics; `desc2` decides membership in a group `T` of classes
(those of the quartics that lift to the 2-Selmer group) that contains the classes of rational points; `order` is correct -/
structure GEnv.Ok (G : GEnv) (T : Bool → ℤ → ℤ → ℤ → Prop) : Prop where
  env : G.toEnv.Ok
  test_no : ∀ w c d1 d2, G.test w c d1 d2 ≠ .no
  test : ∀ w c d1 d2 x y z, G.test w c d1 d2 = .pt x y z → ¬(x = 0 ∧ z = 0) ∧ y ^ 2 = d1 * x ^ 4 + c * x ^ 2 * z ^ 2 + d2 * z ^ 4
  desc2 : ∀ w c d1 d2 x y z, G.desc2 w c d1 d2 = .pt x y z → ¬(x = 0 ∧ z = 0) ∧ y ^ 2 = d1 * x ^ 4 + c * x ^ 2 * z ^ 2 + d2 * z ^ 4
  desc2_no : ∀ w c d D, Curve c d → Sel c d D → G.desc2 w c D (d / D) = .no → ¬ T w c d D
  desc2loc : ∀ w c d D, Curve c d → Sel c d D → (G.desc2loc w c D (d / D) = true ↔ T w c d D)
  glob : ∀ w c d D, Curve c d → Glob c d D → T w c d D
  mul : ∀ w c d D₁ D₂ D₃, Curve c d → T w c d D₁ → T w c d D₂ → Squarefree D₃ → IsSquare (D₁ * D₂ * D₃) → T w c d D₃
  inf : ∀ c d, Curve c d → ∀ P : (Cu (c : ℚ) (d : ℚ)).toAffine.Point, G.inf c d (crd P) = true ↔ ¬ IsOfFinAddOrder P

/-- the same environment with another bound for the recursion -/
def GEnv.withFuel (G : GEnv) (f : ℕ) : GEnv := { G with fuel := f }

theorem fdiv_eq {d D : ℤ} (h : D ∣ d) (h0 : D ≠ 0) : d.fdiv D = d / D := by
  obtain ⟨k, rfl⟩ := h
  rw [Int.mul_fdiv_cancel_left _ h0, Int.mul_ediv_cancel_left _ h0]

/-- groups of classes -/
structure Grp (c d : ℤ) (S : ℤ → Prop) : Prop where
  sel : ∀ D, S D → Sel c d D
  glob : ∀ D, Glob c d D → S D
  mul : ∀ D₁ D₂ D₃, S D₁ → S D₂ → Squarefree D₃ → IsSquare (D₁ * D₂ * D₃) → S D₃

theorem glob_one (c d : ℤ) : Glob c d 1 := ⟨squarefree_one, 0, by rw [dl_zero]; exact ⟨1, by norm_num⟩⟩

/-- multiplication of classes of points -/
theorem class_mul {c d D₁ D₂ D₃ : ℤ} (hc : Curve c d) {P Q : (Cu (c : ℚ) (d : ℚ)).toAffine.Point} (h1 : D₁ ≠ 0) (h2 : D₂ ≠ 0)
    (hs : IsSquare (D₁ * D₂ * D₃)) (hP : IsSquare ((D₁ : ℚ) * dl (Cu (c : ℚ) (d : ℚ)) 0 P))
    (hQ : IsSquare ((D₂ : ℚ) * dl (Cu (c : ℚ) (d : ℚ)) 0 Q)) :
    IsSquare ((D₃ : ℚ) * dl (Cu (c : ℚ) (d : ℚ)) 0 (P + Q)) := by
  have nd := hc.nd ℚ
  obtain ⟨u, hu⟩ := dl_add nd.two nd.disc (g2_zero _ _) P Q
  obtain ⟨v, hv⟩ := hP
  obtain ⟨w, hw⟩ := hQ
  obtain ⟨s, hs⟩ := hs
  have hs' : (D₁ : ℚ) * D₂ * D₃ = s * s := by exact_mod_cast hs
  have n1 := dl_ne nd.two nd.disc (g2_zero _ _) P
  have n2 := dl_ne nd.two nd.disc (g2_zero _ _) Q
  have m1 : (D₁ : ℚ) ≠ 0 := by exact_mod_cast h1
  have m2 : (D₂ : ℚ) ≠ 0 := by exact_mod_cast h2
  generalize dl (Cu (c : ℚ) (d : ℚ)) 0 P = p at *
  generalize dl (Cu (c : ℚ) (d : ℚ)) 0 Q = q at *
  generalize dl (Cu (c : ℚ) (d : ℚ)) 0 (P + Q) = r at *
  refine ⟨s * u * v * w / (D₁ * p * D₂ * q), ?_⟩
  have key : (D₃ : ℚ) * r * (D₁ * p * D₂ * q) ^ 2 = (s * u * v * w) ^ 2 := by
    have : (s * u * v * w) ^ 2 = (s * s) * (u * u) * (v * v) * (w * w) := by ring
    rw [this, ← hs', ← hu, ← hv, ← hw]
    ring
  have hne : (D₁ : ℚ) * p * D₂ * q ≠ 0 := mul_ne_zero (mul_ne_zero (mul_ne_zero m1 n1) m2) n2
  rw [div_mul_div_comm, eq_div_iff (mul_ne_zero hne hne)]
  linear_combination key

theorem glob_mul {c d D₁ D₂ D₃ : ℤ} (hc : Curve c d) (h1 : Glob c d D₁) (h2 : Glob c d D₂) (h3 : Squarefree D₃)
    (hs : IsSquare (D₁ * D₂ * D₃)) : Glob c d D₃ := by
  obtain ⟨a1, P, a2⟩ := h1
  obtain ⟨b1, Q, b2⟩ := h2
  exact ⟨h3, P + Q, class_mul hc a1.ne_zero b1.ne_zero hs a2 b2⟩

section gls
variable {G : GEnv} {T : Bool → ℤ → ℤ → ℤ → Prop} {ce de c d : ℤ} {w : Bool} {S : ℤ → Prop} {gens0 : List ℤ}

/-- what `makepoint` is to do: `im` is the map to the curve `ee` -/
def MkOk (w : Bool) (im : (Cu (c : ℚ) (d : ℚ)).toAffine.Point →+ (Cu (ce : ℚ) (de : ℚ)).toAffine.Point) : Prop :=
  ∀ D d2 x y z : ℤ, D ≠ 0 → D * d2 = d → ¬(x = 0 ∧ z = 0) → y ^ 2 = D * x ^ 4 + c * x ^ 2 * z ^ 2 + d2 * z ^ 4 →
    ∃ U, IsSquare ((D : ℚ) * dl (Cu (c : ℚ) (d : ℚ)) 0 U) ∧ crd (im U) = makepoint w D d2 x y z

/-- the class with index `m` is the class of a point whose image is generated by the points found -/
def QG (gens0 : List ℤ) (im : (Cu (c : ℚ) (d : ℚ)).toAffine.Point →+ (Cu (ce : ℚ) (de : ℚ)).toAffine.Point)
    (pts : List (Option (ℚ × ℚ))) (m : ℕ) : Prop :=
  ∃ U, IsSquare ((cl gens0 m : ℚ) * dl (Cu (c : ℚ) (d : ℚ)) 0 U) ∧ im U ∈ Hs (Cu (ce : ℚ) (de : ℚ)) pts

theorem QG_zero (hg : Gn gens0) (im : (Cu (c : ℚ) (d : ℚ)).toAffine.Point →+ (Cu (ce : ℚ) (de : ℚ)).toAffine.Point)
    (pts : List (Option (ℚ × ℚ))) : QG gens0 im pts 0 := by
  refine ⟨0, ?_, ?_⟩
  · rw [hg.cl_zero, dl_zero]; exact ⟨1, by norm_num⟩
  · rw [map_zero]; exact zero_mem _

theorem QG_xor (hg : Gn gens0) (hc : Curve c d) {im : (Cu (c : ℚ) (d : ℚ)).toAffine.Point →+ (Cu (ce : ℚ) (de : ℚ)).toAffine.Point}
    {pts : List (Option (ℚ × ℚ))} {a b : ℕ} (ha : QG gens0 im pts a) (hb : QG gens0 im pts b) : QG gens0 im pts (a ^^^ b) := by
  obtain ⟨U, u1, u2⟩ := ha
  obtain ⟨V, v1, v2⟩ := hb
  refine ⟨U + V, class_mul hc (hg.cl_spec a).2.1.ne_zero (hg.cl_spec b).2.1.ne_zero (hg.cl_xor a b) u1 v1, ?_⟩
  rw [map_add]
  exact add_mem u2 v2

theorem findGls_ok (ok : G.Ok T) (hce : Curve ce de) (hg : Gn gens0) (hb : IsBasis S gens0) (hS : Grp c d S)
    (hno : G.second = true → ∀ D, S D → G.desc2 w c D (d / D) ≠ .no)
    {im : (Cu (c : ℚ) (d : ℚ)).toAffine.Point →+ (Cu (ce : ℚ) (de : ℚ)).toAffine.Point} (him : MkOk w im)
    {nt2 : ℕ} (hn : nt2 ≤ gens0.length) (hT : ∀ D ∈ gens0.take nt2, GlobT c d D)
    {pts : List (Option (ℚ × ℚ))} (hpts : Good (Cu (ce : ℚ) (de : ℚ)) pts) :
    ∃ g p, findGls G ce de w c d gens0 nt2 pts = some (some (g, p)) ∧ Good (Cu (ce : ℚ) (de : ℚ)) p ∧ (∀ o ∈ pts, o ∈ p) ∧
      ∃ B vs, SI gens0.length gens0 (QG gens0 im p) B g vs := by
  have h30 := hg.len
  have hmem : ∀ m < 2 ^ gens0.length, S (cl gens0 m) :=
    cl_mem hg hb (hS.glob 1 (glob_one c d)) hS.mul
  have hquot : ∀ m < 2 ^ gens0.length, d.fdiv (cl gens0 m) = d / cl gens0 m ∧ cl gens0 m * (d / cl gens0 m) = d := by
    intro m hm
    have hs := hS.sel _ (hmem m hm)
    exact ⟨fdiv_eq hs.dvd hs.sqf.ne_zero, Int.mul_ediv_cancel' hs.dvd⟩
  have key : ∀ t : ℤ → ℤ → Res, (∀ m < 2 ^ gens0.length, t (cl gens0 m) (d / cl gens0 m) ≠ .no) →
      (∀ d1 d2 x y z, t d1 d2 = .pt x y z → ¬(x = 0 ∧ z = 0) ∧ y ^ 2 = d1 * x ^ 4 + c * x ^ 2 * z ^ 2 + d2 * z ^ 4) →
      ∀ (s : GS) vs, SI gens0.length gens0 (QG gens0 im s.pts) s.B s.gens vs → Good (Cu (ce : ℚ) (de : ℚ)) s.pts → (∀ o ∈ pts, o ∈ s.pts) →
      ∃ s' vs', glsLoop (G.inf ce de) w t gens0 d (2 ^ gens0.length - 1) 1 s = some (some s') ∧
        SI gens0.length gens0 (QG gens0 im s'.pts) s'.B s'.gens vs' ∧ Good (Cu (ce : ℚ) (de : ℚ)) s'.pts ∧ ∀ o ∈ pts, o ∈ s'.pts := by
    intro t hno' htest s vs h1 h2 h3
    have hpos : 0 < 2 ^ gens0.length := Nat.two_pow_pos _
    refine glsLoop_spec hg (Q := QG gens0 im) (Good := fun p => Good (Cu (ce : ℚ) (de : ℚ)) p ∧ ∀ o ∈ pts, o ∈ p) ?_ _ 1 (by omega) h1 ⟨h2, h3⟩
    intro m hm
    obtain ⟨q1, q2⟩ := hquot m hm
    rw [q1]
    refine ⟨hno' m hm, ?_⟩
    rintro x y z hres p ⟨hp1, hp2⟩ p' rfl
    obtain ⟨e0, e1⟩ := htest _ _ _ _ _ hres
    obtain ⟨U, u1, u2⟩ := him _ _ x y z (hg.cl_spec m).2.1.ne_zero q2 e0 e1
    rw [← u2]
    by_cases hi : G.inf ce de (crd (im U)) = true
    · rw [if_pos hi]
      refine ⟨⟨?_, fun o ho => List.mem_append_left _ (hp2 o ho)⟩, ⟨U, u1, Hs_mem (by simp)⟩, ?_⟩
      · intro o ho
        rcases List.mem_append.1 ho with ho | ho
        · exact hp1 o ho
        · rw [List.mem_singleton] at ho
          exact ⟨im U, ho.symm, (ok.inf ce de hce _).1 hi⟩
      · rintro u ⟨V, v1, v2⟩
        exact ⟨V, v1, Hs_mono (fun o ho => List.mem_append_left _ ho) v2⟩
    · rw [if_neg hi]
      refine ⟨⟨hp1, hp2⟩, ⟨U, u1, Hs_tors ?_⟩, fun _ h => h⟩
      by_contra hf
      exact hi ((ok.inf ce de hce _).2 hf)
  unfold findGls
  rw [if_neg (by omega)]
  obtain ⟨s, s1, s2, -⟩ := torsLoop2_full (P := QG gens0 im pts) hg false nt2 hn (by
    intro j hj
    rw [QG, hg.cl_two_pow j (by omega)]
    obtain ⟨-, P, p1, p2⟩ := hT (gens0[j]'(by omega)) (by
      rw [List.mem_take_iff_getElem]
      exact ⟨j, by omega, rfl⟩)
    refine ⟨P, p2, Hs_tors (im.isOfFinAddOrder p1)⟩)
  simp only [s1]
  obtain ⟨s', vs', a1, a2, a3, a4⟩ := key (G.test w c) (fun m _ => ok.test_no w c _ _) (ok.test w c) ⟨s.1, s.2, pts⟩ _ s2 hpts fun o ho => ho
  simp only [a1]
  by_cases hsec : G.second = true
  · rw [if_pos hsec]
    obtain ⟨s'', vs'', b1, b2, b3, b4⟩ := key (G.desc2 w c) (fun m hm => hno hsec _ (hmem m hm)) (ok.desc2 w c) s' vs' a2 a3 a4
    simp only [b1]
    exact ⟨_, _, rfl, b3, b4, _, _, b2⟩
  · rw [if_neg hsec]
    exact ⟨_, _, rfl, a3, a4, _, _, a2⟩

/-- the classes found are classes of rational points, and independent -/
theorem gls_glob (hc : Curve c d) (hg : Gn gens0) (hb : IsBasis S gens0) (hS : Grp c d S)
    {im : (Cu (c : ℚ) (d : ℚ)).toAffine.Point →+ (Cu (ce : ℚ) (de : ℚ)).toAffine.Point} {p : List (Option (ℚ × ℚ))} {B : BS} {g : List ℤ}
    {vs : List ℕ} (h : SI gens0.length gens0 (QG gens0 im p) B g vs) :
    (∀ D ∈ g, Glob c d D) ∧ (∀ l : List ℤ, l.Sublist g → IsSquare l.prod → l = []) ∧ 2 ^ g.length ≤ {D | Glob c d D}.ncard ∧
      (g.length = gens0.length → ∀ P : (Cu (c : ℚ) (d : ℚ)).toAffine.Point, ∃ U, IsSquare (dl (Cu (c : ℚ) (d : ℚ)) 0 (-U + P)) ∧
        im U ∈ Hs (Cu (ce : ℚ) (de : ℚ)) p) := by
  have hB := h.basis hg hb (T := fun D => ∃ m, m < 2 ^ gens0.length ∧ D = cl gens0 m ∧ Span vs m) fun _ => Iff.rfl
  have hsp : ∀ m, Span vs m → m < 2 ^ gens0.length ∧ QG gens0 im p m := fun m hm =>
    span_P (fun a b _ _ => QG_xor hg hc) (QG_zero hg im p) h.mem hm
  have hgl : ∀ m, QG gens0 im p m → Glob c d (cl gens0 m) := by
    rintro m ⟨U, u1, -⟩
    exact ⟨(hg.cl_spec m).2.1, U, u1⟩
  refine ⟨fun D hD => ?_, hB.ind, ?_, ?_⟩
  · obtain ⟨m, -, rfl, hm⟩ := hB.mem D hD
    exact hgl m (hsp m hm).2
  · rw [← hB.card]
    refine Set.ncard_le_ncard ?_ ?_
    · rintro D ⟨m, -, rfl, hm⟩
      exact hgl m (hsp m hm).2
    · refine Set.Finite.subset (s := {D | S D}) ?_ fun D hD => hS.glob D hD
      apply Set.finite_of_ncard_ne_zero
      rw [hb.card]
      positivity
  · intro hl P
    have hlen : vs.length = gens0.length := by rw [← hl, h.gens_eq, List.length_map]
    obtain ⟨D, d1, d2⟩ := exists_glob hc P
    obtain ⟨m, m1, rfl⟩ := cl_surj hg hb d1 (hS.glob D ⟨d1, P, d2⟩)
    obtain ⟨U, u1, u2⟩ := (hsp m (h.full hlen m1)).2
    refine ⟨U, ?_, u2⟩
    rw [sq_sub (hc.nd ℚ)]
    have hne : (cl gens0 m : ℚ) ≠ 0 := by exact_mod_cast d1.ne_zero
    obtain ⟨r, hr⟩ := u1
    obtain ⟨s, hs⟩ := d2
    refine ⟨r * s / cl gens0 m, ?_⟩
    field_simp
    linear_combination hr * ((cl gens0 m : ℚ) * dl (Cu (c : ℚ) (d : ℚ)) 0 P) + r ^ 2 * hs

/-- `find_els2gens` -/
theorem findEls2_ok (ok : G.Ok T) (hc : Curve c d) {E : Els} (hE : IsBasis (Sel c d) E.gens) (hg : Gn E.gens) (hn : E.nt2 ≤ E.gens.length)
    (hT : ∀ D ∈ E.gens.take E.nt2, GlobT c d D) :
    ∃ a, findEls2 G w c d E = some a ∧ IsBasis (fun D => Sel c d D ∧ T w c d D) a ∧ Gn a ∧ E.nt2 ≤ a.length ∧
      a.take E.nt2 = E.gens.take E.nt2 := by
  have h30 := hg.len
  have hmem : ∀ m < 2 ^ E.gens.length, Sel c d (cl E.gens m) :=
    cl_mem hg hE (sel_one c d) fun a b e h1 h2 h3 h4 => sel_mul hc h1 h2 h3 h4
  unfold findEls2
  rw [if_neg (by omega)]
  obtain ⟨s, s1, s2, s3⟩ := torsLoop2_full (P := fun m => T w c d (cl E.gens m)) hg true E.nt2 hn (by
    intro j hj
    rw [hg.cl_two_pow j (by omega)]
    exact ok.glob w c d _ hc (hT (E.gens[j]'(by omega)) (by
      rw [List.mem_take_iff_getElem]
      exact ⟨j, by omega, rfl⟩)).glob)
  simp only [s1]
  obtain ⟨s', vs', a1, a2, a3, a4⟩ := els2_full hg (t := G.desc2loc w c) (d := d) (P := fun m => T w c d (cl E.gens m))
    (by
      intro m hm
      have hs := hmem m hm
      rw [fdiv_eq hs.dvd hs.sqf.ne_zero]
      exact ok.desc2loc w c d _ hc hs)
    (fun a b _ _ ha hb => ok.mul w c d _ _ _ hc ha hb (hg.cl_spec _).2.1 (hg.cl_xor a b))
    (by rw [hg.cl_zero]; exact ok.glob w c d 1 hc (glob_one c d)) s2
  simp only [a1]
  have hpre : E.gens.take E.nt2 <+: s'.2 := by
    rw [← s3, a2.gens_eq, s2.gens_eq]
    exact a3.map _
  have hle := hpre.length_le
  rw [List.length_take, min_eq_left hn] at hle
  refine ⟨_, rfl, ?_, ⟨?_, ?_⟩, hle, ?_⟩
  · refine a2.basis hg hE fun D => ⟨?_, ?_⟩
    · rintro ⟨h1, h2⟩
      obtain ⟨m, m1, rfl⟩ := cl_surj hg hE h1.sqf h1
      exact ⟨m, m1, rfl, (a4 m).1 ⟨m1, h2⟩⟩
    · rintro ⟨m, m1, rfl, hm⟩
      exact ⟨hmem m m1, ((a4 m).2 hm).2⟩
  · intro q hq
    rw [a2.gens_eq] at hq
    obtain ⟨v, -, rfl⟩ := List.mem_map.1 hq
    exact (hg.cl_spec v).2.1
  · rw [a2.gens_eq, List.length_map]
    exact a2.le.trans h30
  · have := List.prefix_iff_eq_take.1 hpre
    rw [List.length_take, min_eq_left hn] at this
    exact this.symm

end gls

/-! ## odd index -/

theorem odd_index {A : Type} [AddCommGroup A] {r : ℕ} {F : Type} [AddCommGroup F] [Finite F] (e : A ≃+ (Fin r → ℤ) × F) (H : AddSubgroup A)
    (h : ∀ P, ∃ S ∈ H, ∃ R, P = S + (R + R)) : Odd H.index := by
  have : Module.Finite ℤ F := Module.Finite.of_finite
  have : Module.Finite ℤ A := Module.Finite.equiv e.symm.toIntLinearEquiv
  have : Module.Finite ℤ (A ⧸ H) := Module.Finite.of_surjective (QuotientAddGroup.mk' H).toIntLinearMap (QuotientAddGroup.mk'_surjective H)
  have hle : (⊤ : Submodule ℤ (A ⧸ H)) ≤ Ideal.span {(2 : ℤ)} • ⊤ := by
    intro x _
    obtain ⟨P, rfl⟩ := QuotientAddGroup.mk'_surjective H x
    obtain ⟨S, hS, R, rfl⟩ := h P
    have e1 : (QuotientAddGroup.mk' H) (S + (R + R)) = (2 : ℤ) • (QuotientAddGroup.mk' H) R := by
      have : (QuotientAddGroup.mk' H) S = 0 := (QuotientAddGroup.eq_zero_iff S).2 hS
      rw [map_add, this, zero_add, map_add, two_zsmul]
    rw [e1]
    exact Submodule.smul_mem_smul (Ideal.mem_span_singleton_self 2) trivial
  obtain ⟨n, h1, h2⟩ := Submodule.exists_sub_one_mem_and_smul_eq_zero_of_fg_of_le_smul (Ideal.span {(2 : ℤ)}) ⊤
    (Module.finite_def.1 inferInstance) hle
  rw [Ideal.mem_span_singleton] at h1
  obtain ⟨k, hk⟩ := h1
  have hn0 : n ≠ 0 := by omega
  have hfin : Finite (A ⧸ H) := by
    apply Module.finite_of_fg_torsion
    intro x
    exact ⟨⟨n, mem_nonZeroDivisors_of_ne_zero hn0⟩, h2 x trivial⟩
  rw [← Nat.not_even_iff_odd, even_iff_two_dvd]
  intro h3
  obtain ⟨x, hx⟩ := exists_prime_addOrderOf_dvd_card' (G := A ⧸ H) 2 h3
  have h4 := h2 x trivial
  have h5 : (addOrderOf x : ℤ) ∣ n := addOrderOf_dvd_iff_zsmul_eq_zero.2 h4
  rw [hx] at h5
  obtain ⟨j, hj⟩ := h5
  push_cast at hj
  omega

/-! ## the theorem -/

theorem IsBasis.congr {S S' : ℤ → Prop} {l : List ℤ} (h : IsBasis S l) (e : ∀ D, S D ↔ S' D) : IsBasis S' l := by
  have : S = S' := funext fun D => propext (e D)
  rwa [← this]

theorem sel_gn {c d : ℤ} {ps gens : List ℤ} (hp : PdivsOf d ps) (hlen : ps.length ≤ 29) (hb : IsBasis (Sel c d) gens) : Gn gens := by
  refine ⟨fun D hD => (hb.mem D hD).sqf, ?_⟩
  have h1 : {D | Sel c d D} ⊆ Sqf.decP (-1 :: ps) '' Set.Iio (2 ^ (ps.length + 1)) := by
    intro D hD
    obtain ⟨m, hm, rfl⟩ := sel_dec hp hD.sqf hD.dvd
    exact ⟨m, hm, rfl⟩
  have h2 := Set.ncard_le_ncard h1 ((Set.finite_Iio _).image _)
  have h3 := Set.ncard_image_le (f := Sqf.decP (-1 :: ps)) (Set.finite_Iio (2 ^ (ps.length + 1)))
  have h4 : (Set.Iio (2 ^ (ps.length + 1)) : Set ℕ).ncard = 2 ^ (ps.length + 1) := by
    rw [Set.ncard_eq_toFinset_card']; simp
  rw [hb.card] at h2
  rw [h4] at h3
  have h5 := (Nat.pow_le_pow_iff_right (by norm_num : 1 < 2)).1 (h2.trans h3)
  omega

/-- if the bound of the first descent is 0, all its classes are those of rational points -/
theorem sel_glob {c d : ℤ} (hc : Curve c d) {g0 g1 : List ℤ} (h0 : IsBasis (Sel c d) g0)
    (h1 : IsBasis (Sel (-2 * c) (c * c - 4 * d)) g1) (hl : g0.length + g1.length = 2) {r : ℕ} {F : Type} [AddCommGroup F] [Finite F]
    (e : (Cu (c : ℚ) (d : ℚ)).toAffine.Point ≃+ (Fin r → ℤ) × F) :
    (∀ D, Sel c d D → Glob c d D) ∧ ∀ D, Sel (-2 * c) (c * c - 4 * d) D → Glob (-2 * c) (c * c - 4 * d) D := by
  have k1 := rank_glob hc e
  have k2 := glob_le hc h0
  have k3 := glob_le hc.dual h1
  have f0 : {D | Sel c d D}.Finite := by
    apply Set.finite_of_ncard_ne_zero
    rw [h0.card]; positivity
  have f1 : {D | Sel (-2 * c) (c * c - 4 * d) D}.Finite := by
    apply Set.finite_of_ncard_ne_zero
    rw [h1.card]; positivity
  have k4 : 2 ^ g0.length * 2 ^ g1.length = 4 := by rw [← pow_add, hl]; norm_num
  have k5 : 4 ≤ {D | Glob c d D}.ncard * {D | Glob (-2 * c) (c * c - 4 * d) D}.ncard := by
    rw [← k1, pow_add]
    have := Nat.one_le_two_pow (n := r)
    omega
  have p0 : 0 < 2 ^ g0.length := by positivity
  have p1 : 0 < 2 ^ g1.length := by positivity
  have k6 : 2 ^ g0.length ≤ {D | Glob c d D}.ncard := by
    by_contra hc
    have := Nat.mul_lt_mul_of_lt_of_le (Nat.lt_of_not_le hc) k3 p1
    omega
  have k7 : 2 ^ g1.length ≤ {D | Glob (-2 * c) (c * c - 4 * d) D}.ncard := by
    by_contra hc
    have := Nat.mul_lt_mul_of_le_of_lt k2 (Nat.lt_of_not_le hc) p0
    omega
  constructor
  · have := Set.eq_of_subset_of_ncard_le (s := {D | Glob c d D}) (t := {D | Sel c d D}) (fun D hD => hD.sel hc) (by rw [h0.card]; exact k6) f0
    intro D hD
    have h : D ∈ {D | Glob c d D} := by rw [this]; exact hD
    exact h
  · have := Set.eq_of_subset_of_ncard_le (s := {D | Glob (-2 * c) (c * c - 4 * d) D}) (t := {D | Sel (-2 * c) (c * c - 4 * d) D})
      (fun D hD => hD.sel hc.dual) (by rw [h1.card]; exact k7) f1
    intro D hD
    have h : D ∈ {D | Glob (-2 * c) (c * c - 4 * d) D} := by rw [this]; exact hD
    exact h

/-- the classes that are left after the second local descent -/
def Sel2 (G : GEnv) (T : Bool → ℤ → ℤ → ℤ → Prop) (w : Bool) (c d D : ℤ) : Prop := Sel c d D ∧ (G.second = true → T w c d D)

theorem sel2_grp {G : GEnv} {T : Bool → ℤ → ℤ → ℤ → Prop} (ok : G.Ok T) (w : Bool) {c d : ℤ} (hc : Curve c d) : Grp c d (Sel2 G T w c d) :=
  ⟨fun _ h => h.1, fun D h => ⟨h.sel hc, fun _ => ok.glob w c d D hc h⟩,
    fun D₁ D₂ D₃ h1 h2 h3 h4 => ⟨sel_mul hc h1.1 h2.1 h3 h4, fun hs => ok.mul w c d D₁ D₂ D₃ hc (h1.2 hs) (h2.2 hs) h3 h4⟩⟩

theorem secondLocal_ok {G : GEnv} {T : Bool → ℤ → ℤ → ℤ → Prop} (ok : G.Ok T) {c d : ℤ} (hc : Curve c d) {L : LD}
    (h0 : IsBasis (Sel c d) L.e0.gens) (h1 : IsBasis (Sel (-2 * c) (c * c - 4 * d)) L.e1.gens) (n0 : Gn L.e0.gens) (n1 : Gn L.e1.gens)
    (t0 : L.e0.nt2 ≤ L.e0.gens.length ∧ ∀ D ∈ L.e0.gens.take L.e0.nt2, GlobT c d D)
    (t1 : L.e1.nt2 ≤ L.e1.gens.length ∧ ∀ D ∈ L.e1.gens.take L.e1.nt2, GlobT (-2 * c) (c * c - 4 * d) D)
    (hbd : L.bound = L.e0.gens.length + L.e1.gens.length - 2) {r : ℕ} {F : Type} [AddCommGroup F] [Finite F]
    (e : (Cu (c : ℚ) (d : ℚ)).toAffine.Point ≃+ (Fin r → ℤ) × F) :
    ∃ a b, secondLocal G c d L = some (a, b, (a.length : ℤ) + b.length - 2) ∧ IsBasis (Sel2 G T false c d) a ∧
      IsBasis (Sel2 G T true (-2 * c) (c * c - 4 * d)) b ∧ Gn a ∧ Gn b ∧
      (L.e0.nt2 ≤ a.length ∧ ∀ D ∈ a.take L.e0.nt2, GlobT c d D) ∧
      (L.e1.nt2 ≤ b.length ∧ ∀ D ∈ b.take L.e1.nt2, GlobT (-2 * c) (c * c - 4 * d) D) := by
  unfold secondLocal
  by_cases h : L.bound = 0 ∨ ¬ G.second = true
  · rw [if_pos h, hbd]
    refine ⟨_, _, rfl, ?_, ?_, n0, n1, t0, t1⟩
    · refine h0.congr fun D => ⟨fun hD => ⟨hD, fun hs => ?_⟩, fun hD => hD.1⟩
      rcases h with h | h
      · exact ok.glob _ _ _ _ hc ((sel_glob hc h0 h1 (by omega) e).1 D hD)
      · exact absurd hs h
    · refine h1.congr fun D => ⟨fun hD => ⟨hD, fun hs => ?_⟩, fun hD => hD.1⟩
      rcases h with h | h
      · exact ok.glob _ _ _ _ hc.dual ((sel_glob hc h0 h1 (by omega) e).2 D hD)
      · exact absurd hs h
  · rw [if_neg h]
    push Not at h
    obtain ⟨a, a1, a2, a3, a4, a5⟩ := findEls2_ok (w := false) ok hc h0 n0 t0.1 t0.2
    obtain ⟨b, b1, b2, b3, b4, b5⟩ := findEls2_ok (w := true) ok hc.dual h1 n1 t1.1 t1.2
    simp only [a1, b1]
    refine ⟨a, b, rfl, a2.congr fun D => ?_, b2.congr fun D => ?_, a3, b3, ⟨a4, by rw [a5]; exact t0.2⟩, b4, by rw [b5]; exact t1.2⟩
    · exact ⟨fun hD => ⟨hD.1, fun _ => hD.2⟩, fun hD => ⟨hD.1, hD.2 h.2⟩⟩
    · exact ⟨fun hD => ⟨hD.1, fun _ => hD.2⟩, fun hD => ⟨hD.1, hD.2 h.2⟩⟩

theorem GEnv.Ok.withFuel {G : GEnv} {T : Bool → ℤ → ℤ → ℤ → Prop} (ok : G.Ok T) (f : ℕ) : (G.withFuel f).Ok T where
  env := ⟨ok.env.ss, ok.env.pdivs, ok.env.tors⟩
  test_no := ok.test_no
  test := ok.test
  desc2 := ok.desc2
  desc2_no := ok.desc2_no
  desc2loc := ok.desc2loc
  glob := ok.glob
  mul := ok.mul
  inf := ok.inf

theorem glob_card_le {c d : ℤ} {S : ℤ → Prop} (hS : Grp c d S) {l : List ℤ} (hb : IsBasis S l) : {D | Glob c d D}.ncard ≤ 2 ^ l.length := by
  rw [← hb.card]
  refine Set.ncard_le_ncard (fun D hD => hS.glob D hD) ?_
  apply Set.finite_of_ncard_ne_zero
  rw [hb.card]
  positivity

theorem isqrt_isSome {n : ℤ} : (isqrt n).isSome = true ↔ IsSquare n := by
  constructor
  · intro h
    obtain ⟨r, hr⟩ := Option.isSome_iff_exists.1 h
    exact ⟨r, (isqrt_some hr).symm⟩
  · rintro ⟨r, rfl⟩
    unfold isqrt
    rw [if_neg (not_lt.2 (mul_self_nonneg r)), Int.sqrt_eq, if_pos]
    · rfl
    · exact Int.natAbs_mul_self' r

/-- the number of points killed by 2 -/
theorem two_tors {c d : ℤ} (hc : Curve c d) :
    Nat.card (dbl (Cu (c : ℚ) (d : ℚ)).toAffine.Point).ker = if IsSquare (c * c - 4 * d) then 4 else 2 := by
  have e1 : (dbl (Cu (c : ℚ) (d : ℚ)).toAffine.Point).ker = (isogHom (isG' hc)).ker.comap (isogHom (isF' hc)) := by
    ext P
    rw [AddSubgroup.mem_comap, AddMonoidHom.mem_ker, AddMonoidHom.mem_ker]
    have := isog_dual (isF' hc) (isG' hc) (by norm_num) P
    have h2 : (isogHom (isG' hc)) ((isogHom (isF' hc)) P) = P + P := this
    rw [h2]
    rfl
  rw [e1, card_comap, card_ker]
  have hk : ∀ Q, Q ∈ (isogHom (isG' hc)).ker ↔ Q = 0 ∨ Q = pT (isG' hc).nd := by
    intro Q
    rw [AddMonoidHom.mem_ker]
    exact isog_ker (isG' hc) Q
  have hT : pT (isG' hc).nd ∈ (isogHom (isF' hc)).range ↔ IsSquare (c * c - 4 * d) := by
    rw [mem_range, dl_T, ← Rat.isSquare_intCast_iff]
    constructor
    · rintro ⟨s, hs⟩
      exact ⟨s / 2, by linear_combination hs / 4⟩
    · rintro ⟨s, hs⟩
      exact ⟨2 * s, by linear_combination 4 * hs⟩
  by_cases hs : IsSquare (c * c - 4 * d)
  · rw [if_pos hs]
    have : (isogHom (isG' hc)).ker ⊓ (isogHom (isF' hc)).range = (isogHom (isG' hc)).ker := by
      rw [inf_eq_left]
      intro Q hQ
      rcases (hk Q).1 hQ with rfl | rfl
      · exact zero_mem _
      · exact hT.2 hs
    rw [this, card_ker]
  · rw [if_neg hs]
    have : (isogHom (isG' hc)).ker ⊓ (isogHom (isF' hc)).range = ⊥ := by
      rw [eq_bot_iff]
      rintro Q ⟨h1, h2⟩
      rcases (hk Q).1 h1 with rfl | rfl
      · exact zero_mem _
      · exact absurd (hT.1 h2) hs
    rw [this]
    simp

namespace Props

/-- **C116** (up to 29 primes). After the second local descent and the global descent the lists `els2gens` are bases of the
groups of classes that are left, `rank_bound` is an upper and `rank` a lower bound for the rank, the classes in `glsgens`
are classes of rational points and independent, and the entries of `pointlist` are points of infinite order of the curve.
If the descent is `certain`, then `rank` is the rank, `index2` the order of the group modulo doubles, and the points and the torsion generate the group modulo doubles, so a
subgroup of odd index. The group of rational points is finitely
generated (`C115_mordell`) and `r` is its rank. -/
theorem C116_global_partial (G : GEnv) (T : Bool → ℤ → ℤ → ℤ → Prop) (ok : G.Ok T) (s2 s4 x0 c d : ℤ) (hcd : c = 3 * x0 + s2)
    (hdd : d = x0 * (c + s2) + s4) (hc : d ≠ 0 ∧ c ^ 2 - 4 * d ≠ 0) (hl0 : (G.pdivs d).length ≤ 29)
    (hl1 : (G.pdivs (c * c - 4 * d)).length ≤ 29) (r : ℕ) (hr : r = Module.finrank ℤ (Cu (c : ℚ) (d : ℚ)).toAffine.Point) :
    ∃ N, ∀ f ≥ N, ∃ R, descent (G.withFuel f) s2 s4 x0 = some (some R) ∧
      IsBasis (Sel2 G T false c d) R.e20 ∧ IsBasis (Sel2 G T true (-2 * c) (c * c - 4 * d)) R.e21 ∧
      R.bound = R.e20.length + R.e21.length - 2 ∧ (r : ℤ) ≤ R.bound ∧
      (∀ D ∈ R.g0, Glob c d D) ∧ (∀ l : List ℤ, l.Sublist R.g0 → IsSquare l.prod → l = []) ∧
      (∀ D ∈ R.g1, Glob (-2 * c) (c * c - 4 * d) D) ∧ (∀ l : List ℤ, l.Sublist R.g1 → IsSquare l.prod → l = []) ∧
      R.rank = R.g0.length + R.g1.length - 2 ∧ R.rank ≤ r ∧
      (∀ o ∈ R.pts, ∃ P : (Cu (c : ℚ) (d : ℚ)).toAffine.Point, crd P = o ∧ ¬ IsOfFinAddOrder P) ∧
      (R.certain = true ↔ R.g0.length = R.e20.length ∧ R.g1.length = R.e21.length) ∧
      R.index2 ≤ (dbl (Cu (c : ℚ) (d : ℚ)).toAffine.Point).range.index ∧
      (R.certain = true → R.rank = r ∧ R.rank = R.bound ∧ R.index2 = (dbl (Cu (c : ℚ) (d : ℚ)).toAffine.Point).range.index ∧
        (∀ P : (Cu (c : ℚ) (d : ℚ)).toAffine.Point, ∃ S ∈ AddSubgroup.closure {Q : (Cu (c : ℚ) (d : ℚ)).toAffine.Point | crd Q ∈ R.pts},
          ∃ t Q : (Cu (c : ℚ) (d : ℚ)).toAffine.Point, IsOfFinAddOrder t ∧ P = S + t + (Q + Q)) ∧
        Odd (AddSubgroup.closure {Q : (Cu (c : ℚ) (d : ℚ)).toAffine.Point | crd Q ∈ R.pts} ⊔
          AddCommGroup.torsion (Cu (c : ℚ) (d : ℚ)).toAffine.Point).index) := by
  obtain ⟨N, hN⟩ := C115_descent_partial G.toEnv ok.env s2 s4 x0 c d hcd hdd hc hl0 hl1
  have hc : Curve c d := hc
  obtain ⟨F, _, _, ⟨e⟩⟩ := mordell_structure hc
  rw [← hr] at e
  have p0 : PdivsOf d (G.pdivs d) := ok.env.pdivs d hc.1
  have p1 : PdivsOf (c * c - 4 * d) (G.pdivs (c * c - 4 * d)) := ok.env.pdivs _ hc.dual.1
  refine ⟨N, fun f hf => ?_⟩
  obtain ⟨L, l1, l2, l3, l4, l5, l6, -⟩ := hN f hf
  have ok' := ok.withFuel f
  obtain ⟨a, b, a1, a2, a3, a4, a5, a6, a7⟩ := secondLocal_ok ok' hc l2 l3 (sel_gn p0 hl0 l2) (sel_gn p1 hl1 l3) l4 l5 l6 e
  have gr0 := sel2_grp ok' false hc
  have gr1 := sel2_grp ok' true hc.dual
  obtain ⟨g0, q0, b1, b2, -, B0, vs0, b4⟩ := findGls_ok (w := false) (ce := c) (de := d) (im := AddMonoidHom.id _) ok' hc a4 a2 gr0
    (fun hs D hD hh => ok'.desc2_no _ _ _ _ hc hD.1 hh (hD.2 hs))
    (by
      intro D d2 x y z h1 h2 h3 h4
      exact mk_false (hc.nd ℚ) h1 (by exact_mod_cast h2) h3 (by exact_mod_cast h4))
    a6.1 a6.2 (pts := []) (by intro o ho; cases ho)
  obtain ⟨g1, q1, c1, c2, c3, B1, vs1, c4⟩ := findGls_ok (w := true) (ce := c) (de := d) (im := isogHom (isG' hc)) ok' hc a5 a3 gr1
    (fun hs D hD hh => ok'.desc2_no _ _ _ _ hc.dual hD.1 hh (hD.2 hs))
    (by
      intro D d2 x y z h1 h2 h3 h4
      exact mk_true (isG' hc) h1 (by exact_mod_cast h2) h3 (by exact_mod_cast h4))
    a7.1 a7.2 b2
  obtain ⟨x1, x2, x3, x4⟩ := gls_glob hc a4 a2 gr0 b4
  obtain ⟨y1, y2, y3, y4⟩ := gls_glob hc.dual a5 a3 gr1 c4
  have k1 := rank_glob hc e
  have k2 := glob_card_le gr0 a2
  have k3 := glob_card_le gr1 a3
  have k4 : 2 ^ (g0.length + g1.length) ≤ 2 ^ (r + 2) := by
    rw [k1, pow_add]
    exact Nat.mul_le_mul x3 y3
  have k5 : 2 ^ (r + 2) ≤ 2 ^ (a.length + b.length) := by
    rw [k1, pow_add]
    exact Nat.mul_le_mul k2 k3
  have k6 := (Nat.pow_le_pow_iff_right (by norm_num : 1 < 2)).1 k4
  have k7 := (Nat.pow_le_pow_iff_right (by norm_num : 1 < 2)).1 k5
  have hidx : (dbl (Cu (c : ℚ) (d : ℚ)).toAffine.Point).range.index = 2 ^ r * (if (isqrt (c * c - 4 * d)).isSome then 4 else 2) := by
    rw [(index_dbl e).1, two_tors hc]
    simp only [isqrt_isSome]
  refine ⟨⟨a, b, g0, g1, (a.length : ℤ) + b.length - 2, (g0.length : ℤ) + g1.length - 2,
    if (isqrt (c * c - 4 * d)).isSome then (2 ^ g0.length * 2 ^ g1.length : ℤ) else (2 ^ g0.length * 2 ^ g1.length : ℤ).tdiv 2,
    decide (a.length = g0.length ∧ b.length = g1.length), q1⟩, ?_, a2, a3, rfl, ?_, x1, x2, y1, y2, rfl, ?_, c2, ?_, ?_, ?_⟩
  · unfold descent
    simp only [← hcd, ← hdd]
    have l1' : localDescent (G.withFuel f).toEnv s2 s4 x0 = some (some L) := l1
    simp only [l1', a1, b1, c1]
  · show (r : ℤ) ≤ (a.length : ℤ) + b.length - 2
    omega
  · show (g0.length : ℤ) + g1.length - 2 ≤ r
    omega
  · show decide (a.length = g0.length ∧ b.length = g1.length) = true ↔ g0.length = a.length ∧ g1.length = b.length
    rw [decide_eq_true_eq, eq_comm, eq_comm (a := b.length)]
  · show (if (isqrt (c * c - 4 * d)).isSome then (2 ^ g0.length * 2 ^ g1.length : ℤ) else (2 ^ g0.length * 2 ^ g1.length : ℤ).tdiv 2) ≤ _
    rw [hidx]
    rw [pow_add] at k4
    split_ifs with hs
    · zify at k4
      push_cast
      rw [pow_add] at k4
      linarith
    · zify at k4
      push_cast
      rw [pow_add] at k4
      rw [Int.tdiv_eq_ediv_of_nonneg (by positivity)]
      omega
  · intro hcert
    have hcert : a.length = g0.length ∧ b.length = g1.length := of_decide_eq_true hcert
    have hgen : ∀ P : (Cu (c : ℚ) (d : ℚ)).toAffine.Point, ∃ S ∈ Hs (Cu (c : ℚ) (d : ℚ)) q1, ∃ Q, P = S + (Q + Q) := by
      intro P
      obtain ⟨U, u1, u2⟩ := x4 hcert.1.symm P
      obtain ⟨Q, hQ⟩ := (mem_range (isG' hc) _).2 u1
      obtain ⟨V, v1, v2⟩ := y4 hcert.2.symm Q
      obtain ⟨R, hR⟩ := (mem_range (isF' hc) _).2 v1
      refine ⟨U + isogHom (isG' hc) V, add_mem (Hs_mono c3 u2) v2, R, ?_⟩
      have e1 : isogHom (isG' hc) (isogHom (isF' hc) R) = R + R := isog_dual (isF' hc) (isG' hc) (by norm_num) R
      have e2 : Q = V + isogHom (isF' hc) R := by rw [hR]; abel
      have e3 : P = U + isogHom (isG' hc) Q := by rw [hQ]; abel
      rw [e3, e2, map_add, e1]
      abel
    refine ⟨?_, ?_, ?_, ?_, odd_index e _ hgen⟩
    · show (g0.length : ℤ) + g1.length - 2 = r
      omega
    · show (g0.length : ℤ) + g1.length - 2 = (a.length : ℤ) + b.length - 2
      omega
    · show (if (isqrt (c * c - 4 * d)).isSome then (2 ^ g0.length * 2 ^ g1.length : ℤ) else (2 ^ g0.length * 2 ^ g1.length : ℤ).tdiv 2) = _
      rw [hidx, ← pow_add, show g0.length + g1.length = r + 2 by omega, pow_add]
      split_ifs with hs
      · push_cast
        ring
      · push_cast
        rw [Int.tdiv_eq_ediv_of_nonneg (by positivity)]
        omega
    · intro P
      obtain ⟨S, hS, Q, rfl⟩ := hgen P
      obtain ⟨s, hs, t, ht, rfl⟩ := AddSubgroup.mem_sup.1 hS
      exact ⟨s, hs, t, Q, ht, rfl⟩

/-- the contribution of the torsion is not always recorded completely: on `y² = x(x-2)(x+7)` the class `-7` of `(-7,0)` is
passed over because its index meets the pivot of the class `-14` of `(0,0)`, although the two classes are independent -/
theorem C116_torsion_skipped :
    torsLoop [-1, 2, 7] (-14) [some (0, 0), some (-7, 0)] (0, []) = some (4, [-14]) ∧
      (∀ l : List ℤ, l.Sublist [-14, -7] → IsSquare l.prod → l = []) := by
  refine ⟨by decide +kernel, ?_⟩
  intro l hl hs
  have : l = [] ∨ l = [-14] ∨ l = [-7] ∨ l = [-14, -7] := by
    rw [← List.mem_sublists] at hl
    have e : List.sublists ([-14, -7] : List ℤ) = [[], [-14], [-7], [-14, -7]] := by decide
    rw [e] at hl
    simpa using hl
  rcases this with rfl | rfl | rfl | rfl
  · rfl
  · obtain ⟨r, hr⟩ := hs
    have := mul_self_nonneg r
    norm_num at hr
    omega
  · obtain ⟨r, hr⟩ := hs
    have := mul_self_nonneg r
    norm_num at hr
    omega
  · obtain ⟨r, hr⟩ := hs
    norm_num at hr
    have h1 : r < 10 := by nlinarith
    have h2 : -10 < r := by nlinarith
    interval_cases r <;> omega

end Props

/-! ## the hypotheses are met -/

/-- a search that finds a point if there is one -/
noncomputable def exSearch (_ : Bool) (c d1 d2 : ℤ) : Res := by
  classical
  exact if h : ∃ p : ℤ × ℤ × ℤ, ¬(p.1 = 0 ∧ p.2.2 = 0) ∧ p.2.1 ^ 2 = d1 * p.1 ^ 4 + c * p.1 ^ 2 * p.2.2 ^ 2 + d2 * p.2.2 ^ 4
    then .pt h.choose.1 h.choose.2.1 h.choose.2.2 else .unk

theorem exSearch_no (w : Bool) (c d1 d2 : ℤ) : exSearch w c d1 d2 ≠ .no := by
  unfold exSearch
  split_ifs <;> simp

theorem exSearch_pt {w : Bool} {c d1 d2 x y z : ℤ} (h : exSearch w c d1 d2 = .pt x y z) :
    ¬(x = 0 ∧ z = 0) ∧ y ^ 2 = d1 * x ^ 4 + c * x ^ 2 * z ^ 2 + d2 * z ^ 4 := by
  unfold exSearch at h
  split_ifs at h with hex
  rw [Res.pt.injEq] at h
  obtain ⟨rfl, rfl, rfl⟩ := h
  exact hex.choose_spec

/-- an environment that meets the contracts: `T` is the group of classes of rational points -/
noncomputable def exG : GEnv where
  toEnv := exEnv
  test := exSearch
  desc2 := exSearch
  desc2loc _ c d1 d2 := by classical exact decide (Glob c (d1 * d2) d1)
  inf c d o := by
    classical exact decide (∃ P : (Cu (c : ℚ) (d : ℚ)).toAffine.Point, crd P = o ∧ ¬ IsOfFinAddOrder P)
  second := true

theorem crd_inj {W : WeierstrassCurve ℚ} {P Q : W.toAffine.Point} (h : crd P = crd Q) : P = Q := by
  rcases P with _ | ⟨x, y, hP⟩ <;> rcases Q with _ | ⟨x', y', hQ⟩
  · rfl
  · simp [crd] at h
  · simp [crd] at h
  · simp only [crd, Option.some.injEq, Prod.mk.injEq] at h
    obtain ⟨rfl, rfl⟩ := h
    rfl

theorem exG_ok : exG.Ok fun _ => Glob where
  env := exEnv_ok
  test_no := exSearch_no
  test w _ _ _ _ _ _ h := exSearch_pt (w := w) h
  desc2 w _ _ _ _ _ _ h := exSearch_pt (w := w) h
  desc2_no w c d D _ _ h := absurd h (exSearch_no w c D (d / D))
  desc2loc w c d D _ hD := by
    show @decide (Glob c (D * (d / D)) D) (Classical.propDecidable _) = true ↔ _
    rw [@decide_eq_true_eq _ (_), Int.mul_ediv_cancel' hD.dvd]
  glob _ _ _ _ _ h := h
  mul _ _ _ _ _ _ hc h1 h2 h3 h4 := glob_mul hc h1 h2 h3 h4
  inf c d _ P := by
    show @decide (∃ Q : (Cu (c : ℚ) (d : ℚ)).toAffine.Point, crd Q = crd P ∧ ¬ IsOfFinAddOrder Q) (Classical.propDecidable _) = true ↔ _
    rw [@decide_eq_true_eq _ (_)]
    constructor
    · rintro ⟨Q, h1, h2⟩
      rwa [← crd_inj h1]
    · intro h
      exact ⟨P, rfl, h⟩

/-- the curve `y² = x³ + 3x` -/
example (r : ℕ) (hr : r = Module.finrank ℤ (Cu ((0 : ℤ) : ℚ) ((3 : ℤ) : ℚ)).toAffine.Point) :
    ∃ N, ∀ f ≥ N, ∃ R, descent (exG.withFuel f) 0 3 0 = some (some R) ∧ R.rank ≤ r ∧ (r : ℤ) ≤ R.bound := by
  obtain ⟨N, h⟩ := Props.C116_global_partial exG _ exG_ok 0 3 0 0 3 rfl rfl (by norm_num)
    (by
      show (List.map _ (List.filter _ (List.range 4))).length ≤ 29
      rw [List.length_map]
      exact (List.length_filter_le _ _).trans (by simp))
    (by
      show (List.map _ (List.filter _ (List.range 13))).length ≤ 29
      rw [List.length_map]
      exact (List.length_filter_le _ _).trans (by simp)) r hr
  refine ⟨N, fun f hf => ?_⟩
  obtain ⟨R, h1, -, -, -, h5, -, -, -, -, -, h11, -⟩ := h f hf
  exact ⟨R, h1, h11, h5⟩

end Eclib.Rank2
