import Verif.Rank2.Selmer
import Verif.Legendre.Desc2Proc
import Verif.Curve.Minimal

/-!
# The run of find_elsgens and the classes of rational points

For C115 (`Verif.Rank2.Props`).
-/

namespace Eclib.Rank2

set_option linter.unusedSectionVars false

open WeierstrassCurve
open Eclib.Sift (dl dl_add dl_ne dl_neg)
open Eclib.LocSol (HasPoint PointAt HasRealPoint)
open Eclib.Sqf (makenum makeindex decP Base suppOf makenum_eq Sq)
open Eclib.Bits

/-- `(x,y)` is a point of finite order of the curve -/
def TPt (c d x y : ℤ) : Prop :=
  ∃ h : (Cu (c : ℚ) (d : ℚ)).toAffine.Nonsingular x y, IsOfFinAddOrder (Affine.Point.some (x : ℚ) (y : ℚ) h)

/-- contracts: the local test at large primes decides solubility, `pdivs` gives the prime divisors, and
`torsion_points` gives points of finite order of the curve, among them the origin and `(0,0)` -/
structure Env.Ok (V : Env) : Prop where
  ss : ∀ a c e p : ℤ, a * e * (c ^ 2 - 4 * a * e) ≠ 0 → Prime p → 1000 ≤ p →
    ∃ r, V.ss a 0 c 0 e p = some r ∧ (r = true ↔ PointAt ⟨a, 0, c, 0, e⟩ p)
  pdivs : Eclib.Curve.PdivsOk V.pdivs
  tors : ∀ c d, Curve c d → none ∈ V.tors c d ∧ some (0, 0) ∈ V.tors c d ∧
    ∀ x y, some (x, y) ∈ V.tors c d → TPt c d x y

/-- the same environment with another bound for the recursion -/
def Env.withFuel (V : Env) (f : ℕ) : Env := { V with fuel := f }

/-- `D` is the class of a rational point -/
def Glob (c d D : ℤ) : Prop :=
  Squarefree D ∧ ∃ P : (Cu (c : ℚ) (d : ℚ)).toAffine.Point, IsSquare ((D : ℚ) * dl (Cu (c : ℚ) (d : ℚ)) 0 P)

/-- `D` is the class of a rational point of finite order -/
def GlobT (c d D : ℤ) : Prop :=
  Squarefree D ∧ ∃ P : (Cu (c : ℚ) (d : ℚ)).toAffine.Point, IsOfFinAddOrder P ∧ IsSquare ((D : ℚ) * dl (Cu (c : ℚ) (d : ℚ)) 0 P)

theorem GlobT.glob {c d D : ℤ} (h : GlobT c d D) : Glob c d D := by
  obtain ⟨h1, P, -, h2⟩ := h
  exact ⟨h1, P, h2⟩

theorem fin_of_neg {A : Type} [AddCommGroup A] {P : A} (h : -P = P) : IsOfFinAddOrder P := by
  rw [isOfFinAddOrder_iff_nsmul_eq_zero]
  refine ⟨2, by norm_num, ?_⟩
  rw [two_nsmul]
  nth_rw 1 [← h]
  exact neg_add_cancel P

theorem tpt_two {c d x : ℤ} (hc : Curve c d) (h : x ^ 3 + c * x ^ 2 + d * x = 0) : TPt c d x 0 := by
  have e : (((0 : ℤ)) : ℚ) ^ 2 = (x : ℚ) ^ 3 + c * x ^ 2 + d * x := by
    have : (x : ℚ) ^ 3 + c * x ^ 2 + d * x = 0 := by exact_mod_cast h
    rw [this]; norm_num
  refine ⟨(hc.nd ℚ).ns e, fin_of_neg ?_⟩
  refine (pt_neg (hc.nd ℚ) e).trans (pt_congr (hc.nd ℚ) _ e rfl ?_)
  norm_num

theorem Glob.sel {c d D : ℤ} (hc : Curve c d) (h : Glob c d D) : Sel c d D := by
  obtain ⟨h1, P, h2⟩ := h
  exact sel_pt hc h1 P h2

section
variable {c d : ℤ} {ps : List ℤ}

/-- the primes dividing `d` -/
def PdivsOf (d : ℤ) (ps : List ℤ) : Prop := ps.Nodup ∧ ∀ p, p ∈ ps ↔ (0 < p ∧ Prime p ∧ p ∣ d)

theorem PdivsOf.base (h : PdivsOf d ps) : Base ps :=
  ⟨fun p hp => ((h.2 p).1 hp).2.1, fun p hp => ((h.2 p).1 hp).1, h.1⟩

theorem sel_dec (h : PdivsOf d ps) {D : ℤ} (hD : Squarefree D) (hd : D ∣ d) :
    ∃ m < 2 ^ (ps.length + 1), D = decP (-1 :: ps) m :=
  Sqf.exists_dec h.base hD fun q h1 h2 h3 => (h.2 q).2 ⟨h2, h1, h3.trans hd⟩

/-- the class of a point of the list -/
theorem tors_glob (hc : Curve c d) {x y : ℤ} (hT : TPt c d x y) :
    ∃ D t : ℤ, t ≠ 0 ∧ (if x = 0 then d else x) = D * t ^ 2 ∧ GlobT c d D := by
  by_cases hx : x = 0
  · rw [if_pos hx]
    obtain ⟨D, t, h1, h2, h3⟩ := int_sqf hc.1
    refine ⟨D, t, h2, h3, h1, pT (hc.nd ℚ), fin_of_neg (neg_T _), 2 * D * t, ?_⟩
    rw [dl_T, h3]
    push_cast
    ring
  · rw [if_neg hx]
    obtain ⟨D, t, h1, h2, h3⟩ := int_sqf hx
    obtain ⟨h, hf⟩ := hT
    have e := Cu_eq.1 h.1
    refine ⟨D, t, h2, h3, h1, pt (hc.nd ℚ) x y e, hf, D * t, ?_⟩
    rw [dl_pt (hc.nd ℚ) (by exact_mod_cast hx)]
    have : (x : ℚ) = D * t ^ 2 := by exact_mod_cast h3
    rw [this]
    ring

theorem tors_index (hc : Curve c d) (hp : PdivsOf d ps) (hlen : ps.length + 1 ≤ 30) {x y : ℤ}
    (e : TPt c d x y) :
    ∃ m, m < 2 ^ (ps.length + 1) ∧ GlobT c d (decP (-1 :: ps) m) ∧
      makeindex (-1 :: ps) (if x = 0 then d else x) = some (m, decP (-1 :: ps) m) := by
  obtain ⟨D, t, h1, h2, h3⟩ := tors_glob hc e
  have hs := h3.glob.sel hc
  obtain ⟨m, hm, rfl⟩ := sel_dec hp hs.sqf hs.dvd
  have hb := hp.base
  obtain ⟨idx, hi⟩ := (Sqf.C60_roundtrip_partial ps hb (by omega)).2 _ t h1 hs.sqf
    fun q k1 k2 k3 => (hp.2 q).2 ⟨k2, k1, k3.trans hs.dvd⟩
  obtain ⟨idx', n0, g1, g2, -, -, g3⟩ := Sqf.C60_makeindex_partial true ps hb (by simp [suppOf]; omega)
    (decP (-1 :: ps) m * t ^ 2) (mul_ne_zero hs.sqf.ne_zero (pow_ne_zero 2 h1))
  rw [hi, Option.some.injEq, Prod.mk.injEq] at g1
  obtain ⟨rfl, rfl⟩ := g1
  rw [makenum_eq true hb (by simp [suppOf]; omega), Option.some.injEq] at g3
  have hlt : idx < 2 ^ (ps.length + 1) := by simpa [suppOf] using g2
  have : idx = m := Sqf.dec_inj hb hlt hm g3
  subst this
  rw [h2]
  exact ⟨idx, hm, h3, hi⟩

theorem pickT1_mem (ord : Option (ℤ × ℤ) → ℤ) (l : List (Option (ℤ × ℤ))) : pickT1 ord l = none ∨ pickT1 ord l ∈ l := by
  unfold pickT1
  generalize hs : ((none : Option (ℤ × ℤ)), (1 : ℤ)) = s
  have h0 : s.1 = none ∨ s.1 ∈ l := by rw [← hs]; exact Or.inl rfl
  clear hs
  have key : ∀ (l' : List (Option (ℤ × ℤ))) (s : Option (ℤ × ℤ) × ℤ), (∀ a ∈ l', a ∈ l) → (s.1 = none ∨ s.1 ∈ l) →
      (l'.foldl (fun (s : Option (ℤ × ℤ) × ℤ) T => if ord T > s.2 then (T, ord T) else s) s).1 = none ∨
      (l'.foldl (fun (s : Option (ℤ × ℤ) × ℤ) T => if ord T > s.2 then (T, ord T) else s) s).1 ∈ l := by
    intro l'
    induction l' with
    | nil => intro s _ h; exact h
    | cons a l' ih =>
      intro s hl h
      rw [List.foldl_cons]
      refine ih _ (fun b hb => hl b (List.mem_cons_of_mem _ hb)) ?_
      split_ifs
      · exact Or.inr (hl a List.mem_cons_self)
      · exact h
  exact key l s (fun _ h => h) h0

theorem torsGens_ok {V : Env} (ok : V.Ok) (hc : Curve c d) {ee2 : Option ℤ} (he : ∀ e, ee2 = some e → e ^ 2 + c * e + d = 0) :
    ∃ tg, torsGens (V.ord c d) (V.mulX c d) (V.tors c d) ee2 = some tg ∧
      ∀ T, some T ∈ tg → TPt c d T.1 T.2 := by
  obtain ⟨h1, h2, h3⟩ := ok.tors c d hc
  have hlen : 2 ≤ (V.tors c d).length := by
    generalize V.tors c d = l at *
    match l, h1, h2 with
    | [a], h1, h2 =>
      rw [List.mem_singleton] at h1 h2
      exact absurd (h1.trans h2.symm) (by simp)
    | a :: b :: l, _, _ => simp
  have hT1 : ∀ T, some T = pickT1 (V.ord c d) (V.tors c d) → TPt c d T.1 T.2 := by
    intro T hT
    rcases pickT1_mem (V.ord c d) (V.tors c d) with h | h
    · rw [h] at hT; cases hT
    · rw [← hT] at h
      exact h3 T.1 T.2 h
  unfold torsGens
  cases ee2 with
  | none =>
    simp only
    rw [if_neg (by omega)]
    refine ⟨_, rfl, fun T hT => ?_⟩
    rw [List.mem_singleton] at hT
    exact hT1 T hT
  | some e =>
    simp only
    rw [if_neg (by omega)]
    refine ⟨_, rfl, fun T hT => ?_⟩
    rcases List.mem_cons.1 hT with hT | hT
    · exact hT1 T hT
    · rw [List.mem_singleton] at hT
      have := he e rfl
      split_ifs at hT <;> (rw [Option.some.injEq] at hT; subst hT; simp only)
      · exact tpt_two hc (by linear_combination e * this)
      · exact tpt_two hc (by ring)

/-- the local tests -/
theorem sol_ok {V : Env} (ok : V.Ok) (hc : Curve c d) {bp : List ℤ}
    (hbp : ∀ p ∈ bp, 0 ≤ p ∧ Prime p) (hall : ∀ p : ℤ, 0 < p → Prime p → p ∣ 2 * d * (c ^ 2 - 4 * d) → p ∈ bp)
    {D : ℤ} (hD : Squarefree D) (hdvd : D ∣ d) :
    ∃ F, ∀ f ≥ F, ∃ r, ((LocSol.locallysolubleAce (V.withFuel f).ss (V.withFuel f).fuel D c (d.fdiv D) bp 0).map
      fun (r : Bool × ℤ) => r.1) = some r ∧ (r = true ↔ Sel c d D) := by
  have hfd : d.fdiv D = d / D := by
    obtain ⟨k, rfl⟩ := hdvd
    rw [Int.mul_fdiv_cancel_left _ hD.ne_zero, Int.mul_ediv_cancel_left _ hD.ne_zero]
  have hm : D * (d / D) = d := Int.mul_ediv_cancel' hdvd
  have hne : D * (d / D) * (c ^ 2 - 4 * D * (d / D)) ≠ 0 := by
    rw [mul_assoc 4, hm]; exact mul_ne_zero hc.1 hc.2
  have hdisc : (⟨D, 0, c, 0, d / D⟩ : Forms.G).disc ≠ 0 := by
    have : (⟨D, 0, c, 0, d / D⟩ : Forms.G).disc = 432 * (D * (d / D)) * (c ^ 2 - 4 * (D * (d / D))) ^ 2 := by
      unfold Forms.G.disc Forms.G.II Forms.G.JJ
      ring
    rw [this, hm]
    exact mul_ne_zero (mul_ne_zero (by norm_num) hc.1) (pow_ne_zero 2 hc.2)
  obtain ⟨F, hF⟩ := LocSol.C62_ace V.ss D c (d / D) bp 0 hdisc hbp fun p hp h1000 => ok.ss D c (d / D) p hne (hbp p hp).2 h1000
  refine ⟨F, fun f hf => ?_⟩
  obtain ⟨r, b, h1, h2, -⟩ := hF f hf
  refine ⟨r, ?_, ?_⟩
  · rw [hfd]
    show (LocSol.locallysolubleAce V.ss f D c (d / D) bp 0).map _ = _
    rw [h1]
    rfl
  · rw [h2]
    constructor
    · rintro ⟨hr, hl⟩
      refine sel_bad hD hdvd hr fun p hp hpd => ?_
      have : Fact p.Prime := ⟨hp⟩
      rw [← LocSol.pointAt_prime ⟨D, 0, c, 0, d / D⟩ p]
      exact hl p (hall p (by exact_mod_cast hp.pos) (Nat.prime_iff_prime_int.1 hp) hpd)
    · intro hs
      refine ⟨hs.real, fun p hp => ?_⟩
      obtain ⟨n, rfl⟩ := Int.eq_ofNat_of_zero_le (hbp p hp).1
      have hn : n.Prime := Nat.prime_iff_prime_int.2 (hbp _ hp).2
      have : Fact n.Prime := ⟨hn⟩
      rw [LocSol.pointAt_prime]
      exact hs.loc n hn

theorem bound_exists {P : ℕ → ℕ → Prop} (N : ℕ) (h : ∀ m < N, ∃ F, ∀ f ≥ F, P m f) : ∃ F, ∀ f ≥ F, ∀ m < N, P m f := by
  induction N with
  | zero => exact ⟨0, fun _ _ m hm => absurd hm (by omega)⟩
  | succ N ih =>
    obtain ⟨F1, h1⟩ := ih fun m hm => h m (by omega)
    obtain ⟨F2, h2⟩ := h N (by omega)
    refine ⟨max F1 F2, fun f hf m hm => ?_⟩
    rcases Nat.lt_succ_iff_lt_or_eq.1 hm with h3 | rfl
    · exact h1 f (by omega) m h3
    · exact h2 f (by omega)

/-- the mask of a triangular system excludes a system of representatives -/
theorem covered_of {ps : List ℤ} (hb : Base ps) (hlen : ps.length + 1 ≤ 30) {pg : List (ℕ × ℕ)} (ht : Bits.Tri pg)
    (hlt : ∀ a ∈ pg, a.2 < 2 ^ (ps.length + 1)) {mask : ℕ} (hm : ∀ j, mask.testBit j = true ↔ ∃ a ∈ pg, a.1 = j) :
    Desc2.Covered (-1 :: ps) (pg.map fun a => decP (-1 :: ps) a.2) mask := by
  have mk : ∀ i, Sqf.makenum (-1 :: ps) i = some (decP (-1 :: ps) i) := fun i =>
    Sqf.makenum_eq true hb (by simp [Sqf.suppOf]; omega) i
  intro i hi m hmi
  rw [mk] at hmi
  obtain rfl := Option.some.inj hmi
  rw [List.length_cons] at hi ⊢
  obtain ⟨l, hl, e⟩ := Bits.span_reduceP pg i
  refine ⟨Bits.reduceP pg i, Bits.reduceP_lt hlt hi, ?_, _, mk _, l.map (decP (-1 :: ps)), ?_, ?_⟩
  · rw [Nat.and_comm, and_zero_iff]
    intro j hj
    obtain ⟨a, ha, rfl⟩ := (hm j).1 hj
    exact Bits.reduceP_clear ht i a ha
  · intro g hg
    obtain ⟨k, hk, rfl⟩ := List.mem_map.1 hg
    obtain ⟨a, ha, rfl⟩ := List.mem_map.1 (hl.subset hk)
    exact List.mem_map.2 ⟨a, ha, rfl⟩
  · have h1 := sq_prod hb l
    have h2 := Sqf.sq_decP_xor (-1 :: ps) i (Bits.reduceP pg i)
    rw [← e] at h2
    have h3 := (h2.trans h1 (dec_ne hb _))
    obtain ⟨w, hw⟩ := h3
    exact ⟨w, by rw [← hw]; ring⟩

/-- `find_elsgens` -/
theorem findEls_ok {V : Env} (ok : V.Ok) (hc : Curve c d) (hp : PdivsOf d ps) (hlen : ps.length + 1 ≤ 30) {bp : List ℤ}
    (hbp : ∀ p ∈ bp, 0 ≤ p ∧ Prime p) (hall : ∀ p : ℤ, 0 < p → Prime p → p ∣ 2 * d * (c ^ 2 - 4 * d) → p ∈ bp)
    {ee2 : Option ℤ} (he : ∀ e, ee2 = some e → e ^ 2 + c * e + d = 0) :
    ∃ F, ∀ f ≥ F, ∃ E, findEls (V.withFuel f) bp (-1 :: ps) c d ee2 = some (some E) ∧ IsBasis (Sel c d) E.gens ∧
      (E.nt2 ≤ E.gens.length ∧ ∀ D ∈ E.gens.take E.nt2, GlobT c d D) ∧ Desc2.Covered (-1 :: ps) E.gens E.mask := by
  have hb := hp.base
  have hbnd : ∃ F, ∀ f ≥ F, ∀ m < 2 ^ (ps.length + 1), ∃ r,
      ((LocSol.locallysolubleAce (V.withFuel f).ss (V.withFuel f).fuel (decP (-1 :: ps) m) c (d.fdiv (decP (-1 :: ps) m)) bp 0).map
        fun (r : Bool × ℤ) => r.1) = some r ∧ (r = true ↔ Sel c d (decP (-1 :: ps) m)) := by
    refine bound_exists _ fun m hm => ?_
    refine sol_ok ok hc hbp hall (Sqf.squarefree_dec hb m) ?_
    refine dvd_of_primes (Sqf.squarefree_dec hb m) fun q hq hqd => ?_
    have key : ∀ q : ℤ, Prime q → 0 < q → q ∣ decP (-1 :: ps) m → q ∣ d := by
      intro q hq h0 hqd
      obtain ⟨i, hi, -⟩ := (Sqf.dvd_dec hb hq h0 m).1 hqd
      exact ((hp.2 q).1 (List.mem_of_getElem? hi)).2.2
    rcases lt_or_gt_of_ne hq.ne_zero with h0 | h0
    · have := key (-q) ((Associated.neg_left (Associated.refl q)).prime_iff.2 hq) (by omega) ((neg_dvd).2 hqd)
      exact (neg_dvd).1 this
    · exact key q hq h0 hqd
  obtain ⟨F, hF⟩ := hbnd
  refine ⟨F, fun f hf => ?_⟩
  unfold findEls
  rw [if_neg (by rw [List.length_cons]; omega), if_neg (by rw [List.length_cons]; omega)]
  obtain ⟨tg, t1, t2⟩ := torsGens_ok ok hc he
  have t1' : torsGens ((V.withFuel f).ord c d) ((V.withFuel f).mulX c d) ((V.withFuel f).tors c d) ee2 = some tg := t1
  simp only [t1']
  obtain ⟨s, s1, s2⟩ := torsLoop_spec (fun m => GlobT c d (decP (-1 :: ps) m)) hlen (d := d) tg
    (fun T hT => tors_index hc hp hlen (t2 T hT)) (inv_nil _)
  simp only [s1]
  have s3 : Inv ps (fun m => Sel c d (decP (-1 :: ps) m)) s := s2.mono fun m hm => hm.glob.sel hc
  obtain ⟨s', pg, g1, g2, g3, g4, g5, g6, g7⟩ := elsLoop_full (fun m => Sel c d (decP (-1 :: ps) m)) hb hlen
    (sol := fun (d1 d2 : ℤ) =>
      (LocSol.locallysolubleAce (V.withFuel f).ss (V.withFuel f).fuel d1 c d2 bp 0).map fun (r : Bool × ℤ) => r.1) (d := d) (hF f hf)
    (fun a b _ _ h1 h2 => sel_mul hc h1 h2 (Sqf.squarefree_dec hb _) (Sqf.sq_decP_xor _ a b))
    (by rw [decP_zero]; exact sel_one c d) (if posd1 c d then 2 else 1) (by split_ifs <;> simp) (by
      intro h m hm hS
      have hp1 : posd1 c d = true := by
        by_contra hh
        rw [if_neg hh] at h
        omega
      have := sel_pos hp1 hS
      by_contra hodd
      have hneg : m.testBit 0 = true := by rw [Nat.testBit_zero]; simp; omega
      have := (Sqf.dec_neg hb m).2 hneg
      omega) s3
  have g1' : elsLoop (fun (d1 d2 : ℤ) =>
      (LocSol.locallysolubleAce (V.withFuel f).ss (V.withFuel f).fuel d1 c d2 bp 0).map fun (r : Bool × ℤ) => r.1)
      (-1 :: ps) d (if posd1 c d then 2 else 1) ((2 ^ (-1 :: ps : List ℤ).length - 1) / (if posd1 c d then 2 else 1))
      (if posd1 c d then 2 else 1) s = some s' := g1
  simp only [g1']
  refine ⟨_, rfl, ?_, ⟨g6.length_le, ?_⟩, by simp only; rw [g3]; exact covered_of hb hlen g2 g4 g7⟩
  · simp only
    rw [g3]
    refine basis_of hb g2 g4 fun D => ⟨fun h => ?_, ?_⟩
    · obtain ⟨m, hm, rfl⟩ := sel_dec hp h.sqf h.dvd
      exact ⟨m, hm, rfl, (g5 m).1 ⟨hm, h⟩⟩
    · rintro ⟨m, hm, rfl, hsp⟩
      exact ((g5 m).2 hsp).2
  · intro D hD
    simp only at hD
    rw [← List.prefix_iff_eq_take.1 g6] at hD
    obtain ⟨pg', -, k2, k3, -⟩ := s2
    rw [k2] at hD
    obtain ⟨a, ha, rfl⟩ := List.mem_map.1 hD
    exact (k3 a ha).2

end

/-- every point has a class -/
theorem exists_glob {c d : ℤ} (hc : Curve c d) (P : (Cu (c : ℚ) (d : ℚ)).toAffine.Point) :
    ∃ D : ℤ, Squarefree D ∧ IsSquare ((D : ℚ) * dl (Cu (c : ℚ) (d : ℚ)) 0 P) :=
  exists_sqf (dl_ne (hc.nd ℚ).two (hc.nd ℚ).disc (g2_zero _ _) P)

/-- the index of the image is the number of classes of rational points -/
theorem index_glob {c d : ℤ} (hc : Curve c d) {a b t : ℚ} (h : Is a b t (c : ℚ) (d : ℚ)) :
    (isogHom h).range.index = {D | Glob c d D}.ncard := by
  choose D hD1 hD2 using exists_glob hc
  have nd := hc.nd ℚ
  have hsq : ∀ {x y z : ℚ}, z ≠ 0 → IsSquare (z * x) → IsSquare (z * y) → IsSquare (x * y) := by
    rintro x y z hz ⟨r, hr⟩ ⟨s, hs⟩
    refine ⟨r * s / z, ?_⟩
    field_simp
    linear_combination hr * (z * y) + r ^ 2 * hs
  have hrel : ∀ P Q, D P = D Q ↔ -P + Q ∈ (isogHom h).range := by
    intro P Q
    rw [mem_range, sq_sub nd]
    have n1 := dl_ne nd.two nd.disc (g2_zero _ _) P
    have n2 := dl_ne nd.two nd.disc (g2_zero _ _) Q
    constructor
    · intro hh
      refine hsq (z := (D P : ℚ)) (by exact_mod_cast (hD1 P).ne_zero) (hD2 P) ?_
      rw [hh]; exact hD2 Q
    · intro hh
      apply Sqf.sq_squarefree (hD1 P) (hD1 Q)
      have h1 : IsSquare ((D P : ℚ) * dl (Cu (c : ℚ) (d : ℚ)) 0 Q) := by
        refine hsq n1 ?_ hh
        rw [mul_comm]; exact hD2 P
      have h2 : IsSquare ((D P : ℚ) * D Q) := by
        refine hsq n2 ?_ ?_
        · rw [mul_comm]; exact h1
        · rw [mul_comm]; exact hD2 Q
      have h3 : IsSquare (((D P * D Q : ℤ)) : ℚ) := by push_cast; exact h2
      exact Rat.isSquare_intCast_iff.1 h3
  let φ : (Cu (c : ℚ) (d : ℚ)).toAffine.Point ⧸ (isogHom h).range → {D | Glob c d D} :=
    Quotient.lift (fun P => (⟨D P, hD1 P, P, hD2 P⟩ : {D | Glob c d D})) (by
      intro P Q hPQ
      exact Subtype.ext ((hrel P Q).2 (QuotientAddGroup.leftRel_apply.1 hPQ)))
  have hφ : Function.Bijective φ := by
    constructor
    · intro x y
      refine Quotient.inductionOn₂ x y fun P Q hPQ => ?_
      exact Quotient.sound (QuotientAddGroup.leftRel_apply.2 ((hrel P Q).1 (congrArg Subtype.val hPQ)))
    · rintro ⟨E, hE, P, hP⟩
      refine ⟨Quotient.mk _ P, Subtype.ext ?_⟩
      apply Sqf.sq_squarefree (hD1 P) hE
      have n1 := dl_ne nd.two nd.disc (g2_zero _ _) P
      have h2 : IsSquare ((D P : ℚ) * E) := by
        refine hsq n1 ?_ ?_
        · rw [mul_comm]; exact hD2 P
        · rw [mul_comm]; exact hP
      have h3 : IsSquare (((D P * E : ℤ)) : ℚ) := by push_cast; exact h2
      exact Rat.isSquare_intCast_iff.1 h3
  rw [AddSubgroup.index, Nat.card_congr (Equiv.ofBijective φ hφ)]
  rfl

theorem isqrt_some {n r : ℤ} (h : isqrt n = some r) : r * r = n := by
  unfold isqrt at h
  split_ifs at h with h1 h2
  rw [Option.some.injEq] at h
  rw [← h]; exact h2

theorem mem_badPrimes {a b : List ℤ} {p : ℤ} : p ∈ badPrimes a b ↔ p = 2 ∨ p ∈ a ∨ p ∈ b := by
  unfold badPrimes
  simp only
  split_ifs with h
  · rw [Desc2.mem_setUnion] at h ⊢
    constructor
    · exact Or.inr
    · rintro (rfl | h')
      · exact h
      · exact h'
  · rw [List.mem_cons, Desc2.mem_setUnion]

theorem Curve.prime_two_dvd {p : ℤ} (h0 : 0 < p) (hp : Prime p) (h : p ∣ 2) : p = 2 := by
  have h1 := Int.le_of_dvd (by norm_num) h
  have h2 : p ≠ 1 := by rintro rfl; exact hp.not_isUnit isUnit_one
  omega

theorem Curve.dual {c d : ℤ} (h : Curve c d) : Curve (-2 * c) (c * c - 4 * d) := by
  refine ⟨?_, ?_⟩
  · have := h.2
    rwa [sq] at this
  · rw [show (-2 * c) ^ 2 - 4 * (c * c - 4 * d) = 16 * d by ring]
    exact mul_ne_zero (by norm_num) h.1

theorem glob_le {c d : ℤ} (hc : Curve c d) {gens : List ℤ} (hb : IsBasis (Sel c d) gens) :
    {D | Glob c d D}.ncard ≤ 2 ^ gens.length := by
  rw [← hb.card]
  refine Set.ncard_le_ncard (fun D hD => hD.sel hc) ?_
  apply Set.finite_of_ncard_ne_zero
  rw [hb.card]
  positivity

/-- the rank and the classes of rational points of the two curves -/
theorem rank_glob {c d : ℤ} (hc : Curve c d) {r : ℕ} {F : Type} [AddCommGroup F] [Finite F]
    (e : (Cu (c : ℚ) (d : ℚ)).toAffine.Point ≃+ (Fin r → ℤ) × F) :
    2 ^ (r + 2) = {D | Glob c d D}.ncard * {D | Glob (-2 * c) (c * c - 4 * d) D}.ncard := by
  rw [pair_index (hc.nd ℚ) e, index_glob hc]
  congr 1
  have e1 : ((-2 * c : ℤ) : ℚ) = -2 * (c : ℚ) := by push_cast; ring
  have e2 : ((c * c - 4 * d : ℤ) : ℚ) = (c : ℚ) ^ 2 - 4 * d := by push_cast; ring
  have key : ∀ (a' b' : ℚ) (h : Is (c : ℚ) (d : ℚ) 1 a' b'), a' = ((-2 * c : ℤ) : ℚ) → b' = ((c * c - 4 * d : ℤ) : ℚ) →
      (isogHom h).range.index = {D | Glob (-2 * c) (c * c - 4 * d) D}.ncard := by
    intro a' b' h h1 h2
    subst h1 h2
    exact index_glob hc.dual h
  exact key _ _ (isF (hc.nd ℚ)) e1.symm e2.symm

theorem isG' {c d : ℤ} (hc : Curve c d) : Is ((-2 * c : ℤ) : ℚ) ((c * c - 4 * d : ℤ) : ℚ) (1 / 2) (c : ℚ) (d : ℚ) := by
  have e1 : ((-2 * c : ℤ) : ℚ) = -2 * (c : ℚ) := by push_cast; ring
  have e2 : ((c * c - 4 * d : ℤ) : ℚ) = (c : ℚ) ^ 2 - 4 * d := by push_cast; ring
  rw [e1, e2]
  exact isG (hc.nd ℚ)

theorem isF' {c d : ℤ} (hc : Curve c d) : Is (c : ℚ) (d : ℚ) 1 ((-2 * c : ℤ) : ℚ) ((c * c - 4 * d : ℤ) : ℚ) := by
  have e1 : ((-2 * c : ℤ) : ℚ) = -2 * (c : ℚ) := by push_cast; ring
  have e2 : ((c * c - 4 * d : ℤ) : ℚ) = (c : ℚ) ^ 2 - 4 * d := by push_cast; ring
  rw [e1, e2]
  exact isF (hc.nd ℚ)

end Eclib.Rank2
