import Verif.Sift.Code
import Verif.Sift.Elim
import Mathlib.Tactic.NormNum.Prime

/-!
# C112: the sifter

The rank computed by the class `sifter` is the dimension over `ℤ/2` of the image of the points under a homomorphism
`E(ℚ) → (ℤ/2)^D` whose components are given by the square classes of `x - e` in `ℚ_p`, for roots `e` in `ℚ_p` of the 2-division
polynomial; when it equals the number of points, these are independent modulo `2E(ℚ)`.
-/

namespace Eclib.Sift

open WeierstrassCurve Eclib.Curve Module

/-! ## Specification (Mathlib's notions only) -/

namespace Spec

/-- `η` is the local character at `p` attached to a root `e` in `ℚ_p` of `4X³ + b₂X² + 2b₄X + b₆`: it vanishes at the point `(x,y)`
if and only if `x - e` is a square in `ℚ_p` -/
def LocalChar (E : Cv) (p : ℕ) (η : E.Pt → ZMod 2) : Prop :=
  ∃ _ : Fact p.Prime, ∃ e : ℚ_[p],
    4 * e ^ 3 + (E.W.b₂ : ℚ_[p]) * e ^ 2 + 2 * (E.W.b₄ : ℚ_[p]) * e + (E.W.b₆ : ℚ_[p]) = 0 ∧
    ∀ (x y : ℚ) (h : E.Q.toAffine.Nonsingular x y), (x : ℚ_[p]) ≠ e → (η (.some x y h) = 0 ↔ IsSquare ((x : ℚ_[p]) - e))

/-- the triple represents the point `A ≠ 0`, in lowest terms -/
def Given (E : Cv) (P : P2) (A : E.Pt) : Prop := P2.isvalid E P = true ∧ P2.Reduced P ∧ Rep E P A ∧ A ≠ 0

/-- independence modulo `2E(ℚ)` -/
def Independent {E : Cv} (As : List E.Pt) : Prop :=
  ∀ (c : Fin As.length → ℤ) (B : E.Pt), ∑ i, c i • As.get i = 2 • B → ∀ i, Even (c i)

end Spec

/-! ## The homomorphism -/

theorem eta_local {E : Cv} {p : ℕ} [hp : Fact p.Prime] {θ : ℤ} {Θ : ℤ_[p]} (g : Good p E θ Θ) : Spec.LocalChar E p (eta g) := by
  refine ⟨hp, rt E Θ, ?_, ?_⟩
  · have := g2_rt E g.root
    simp only [g2, Ep_eq, map_b₂, map_b₄, map_b₆, eq_intCast] at this
    exact this
  · intro x y h hx
    obtain ⟨h', hP⟩ := toP_some (p := p) E h
    have hd : dl (Ep p E) (rt E Θ) (toP p E (.some x y h)) = (x : ℚ_[p]) - rt E Θ := by
      rw [hP]
      exact if_neg hx
    rw [eta, AddMonoidHom.mk'_apply, hd]
    split
    · simp [*]
    · simp [*]

/-- the pairs (prime, root) giving the coordinates -/
def allc (auxs : List Aux) : List (ℕ × ℤ) := auxs.flatMap (fun a => (coords a).map (fun t => (a.p, t)))

theorem coords_length {E : Cv} {a : Aux} (h : AuxOk E a) :
    (coords a).length = if a.roots.length > 1 then 2 else 1 := by
  obtain ⟨c, d, hr, -⟩ := h.roots
  unfold coords
  rcases hr.shape with h0 | ⟨t, h1⟩ | ⟨t0, t1, t2, h3, -⟩
  · have := h.pos
    rw [h0] at this
    simp at this
  · rw [h1]
    rfl
  · rw [h3]
    rfl

theorem allc_length {E : Cv} : ∀ (auxs : List Aux), (∀ a ∈ auxs, AuxOk E a) → (allc auxs).length = maxDim auxs
  | [], _ => rfl
  | a :: l, h => by
    have ih := allc_length l (fun b hb => h b (List.mem_cons_of_mem _ hb))
    rw [allc, List.flatMap_cons, List.length_append, ← allc, ih, List.length_map, coords_length (h a List.mem_cons_self)]
    simp [maxDim]

theorem coords_mem {a : Aux} {t : ℤ} (h : t ∈ coords a) : t ∈ a.roots := by
  unfold coords at h
  split at h
  · rename_i h'
    rw [h']
    exact h
  · rename_i h'
    rw [h']
    simp only [List.mem_cons, List.not_mem_nil, or_false] at h ⊢
    tauto
  · simp at h

theorem allc_mem {auxs : List Aux} {q : ℕ × ℤ} (h : q ∈ allc auxs) : ∃ a ∈ auxs, q.1 = a.p := by
  rw [allc, List.mem_flatMap] at h
  obtain ⟨a, ha, h⟩ := h
  rw [List.mem_map] at h
  obtain ⟨t, -, rfl⟩ := h
  exact ⟨a, ha, rfl⟩

/-- the character of a pair -/
theorem pair_char {E : Cv} {auxs : List Aux} (h : ∀ a ∈ auxs, AuxOk E a) {q : ℕ × ℤ} (hq : q ∈ allc auxs) :
    ∃ η : E.Pt →+ ZMod 2, Spec.LocalChar E q.1 η ∧ ∀ (u d : ℤ) (x y : ℚ) (hxy : E.Q.toAffine.Nonsingular x y), IsCoprime u d →
      d ≠ 0 → x * (d : ℚ) ^ 2 = u →
      (η (.some x y hxy) = 0 ↔ ¬ Bit E q.1 q.2 (36 * u + 3 * E.W.b₂ * d ^ 2) (d ^ 2)) := by
  rw [allc, List.mem_flatMap] at hq
  obtain ⟨a, ha, hq⟩ := hq
  rw [List.mem_map] at hq
  obtain ⟨t, ht, rfl⟩ := hq
  have hF : Fact a.p.Prime := ⟨(h a ha).prime⟩
  obtain ⟨Θ, g⟩ := (h a ha).good (coords_mem ht)
  refine ⟨eta g, eta_local g, ?_⟩
  intro u d x y hxy hud hd0 hx
  rw [eta_spec g hud hd0 hxy hx, Bit, not_not]

theorem eps_spec {E : Cv} {u d : ℤ} (hud : IsCoprime u d) (S : Sifter) (hI : S.I = E.W.c₄) :
    ∀ (auxs : List Aux), (∀ a ∈ auxs, AuxOk E a) →
    List.Forall₂ (fun (b : Bool) (q : ℕ × ℤ) => b = true ↔ Bit E q.1 q.2 (36 * u + 3 * E.W.b₂ * d ^ 2) (d ^ 2))
      (auxs.flatMap (fun a => block S.I a (36 * u + 3 * E.W.b₂ * d ^ 2) (d ^ 2))) (allc auxs)
  | [], _ => List.Forall₂.nil
  | a :: l, h => by
    have ih := eps_spec hud S hI l (fun b hb => h b (List.mem_cons_of_mem _ hb))
    rw [allc, List.flatMap_cons, List.flatMap_cons]
    refine List.rel_append ?_ ih
    rw [List.forall₂_map_right_iff, hI]
    exact block_spec (h a List.mem_cons_self) hud

/-- the coordinates used by `process` -/
theorem given_shape {E : Cv} {P : P2} {A : E.Pt} (h : Spec.Given E P A) : ∃ (u d : ℤ) (x y : ℚ) (hxy : E.Q.toAffine.Nonsingular x y),
    A = .some x y hxy ∧ IsCoprime u d ∧ 0 < d ∧ x * (d : ℚ) ^ 2 = u ∧ ((Int.gcd P.X P.Z : ℕ) : ℤ) = d ∧ P.X.fdiv d = u := by
  obtain ⟨hv, hr, hrep, hA⟩ := h
  match A, hrep, hA with
  | .zero, _, hA => exact absurd rfl hA
  | .some x y hxy, hrep, _ =>
    rw [Rep.some_iff] at hrep
    obtain ⟨u, d, hd, hX, hZ, hc⟩ := reduced_shape ((P2.isvalid_iff E P).1 hv).2 hr hrep.1
    have hd0 : d ≠ 0 := hd.ne'
    refine ⟨u, d, x, y, hxy, rfl, hc, hd, ?_, ?_, ?_⟩
    · have := hrep.2.1
      rw [hX, hZ] at this
      push_cast at this
      have hdq : (d : ℚ) ≠ 0 := by exact_mod_cast hd0
      apply mul_right_cancel₀ hdq
      linear_combination -this
    · rw [hX, hZ, show u * d = d * u by ring, show d ^ 3 = d * d ^ 2 by ring, Int.gcd_mul_left]
      have : Int.gcd u (d ^ 2) = 1 := Int.isCoprime_iff_gcd_eq_one.1 (hc.pow_right)
      rw [this, mul_one]
      omega
    · rw [hX, Int.mul_fdiv_cancel _ hd0]

/-- the state of the sifter after the points `As` -/
structure StOk (E : Cv) (D : ℕ) (φ : E.Pt →+ (Fin D → ZMod 2)) (auxs : List Aux) (S : Sifter) (As : List E.Pt) : Prop where
  hI : S.I = E.W.c₄
  hr : S.r = 3 * E.W.b₂
  ha : S.auxs = auxs
  rows : RowsOk D S.rows
  span : Spn D S.rows = Submodule.span (ZMod 2) (φ '' {A | A ∈ As})

/-- `φ` is computed by `eps` -/
def Computes (E : Cv) (auxs : List Aux) (φ : E.Pt →+ (Fin (maxDim auxs) → ZMod 2)) : Prop :=
  ∀ (u d : ℤ) (x y : ℚ) (hxy : E.Q.toAffine.Nonsingular x y), IsCoprime u d → d ≠ 0 → x * (d : ℚ) ^ 2 = u →
    ∀ S : Sifter, S.I = E.W.c₄ → S.auxs = auxs →
      (eps S (36 * u + 3 * E.W.b₂ * d ^ 2) (d ^ 2)).length = maxDim auxs ∧
      vec (maxDim auxs) (eps S (36 * u + 3 * E.W.b₂ * d ^ 2) (d ^ 2)) = φ (.some x y hxy)

theorem exists_phi {E : Cv} {auxs : List Aux} (h : ∀ a ∈ auxs, AuxOk E a) :
    ∃ φ : E.Pt →+ (Fin (maxDim auxs) → ZMod 2),
      (∀ k, ∃ a ∈ auxs, Spec.LocalChar E a.p (fun A => φ A k)) ∧ Computes E auxs φ := by
  have hl := allc_length auxs h
  have hk (k : Fin (maxDim auxs)) : (k : ℕ) < (allc auxs).length := by omega
  choose η h1 h2 using fun k : Fin (maxDim auxs) => pair_char h (List.getElem_mem (hk k))
  refine ⟨AddMonoidHom.pi η, ?_, ?_⟩
  · intro k
    obtain ⟨a, ha, e⟩ := allc_mem (List.getElem_mem (hk k))
    have := h1 k
    rw [e] at this
    exact ⟨a, ha, this⟩
  · intro u d x y hxy hud hd0 hx S hI hS
    have hf := eps_spec hud S hI auxs h
    rw [← hS, ← eps_eq, hS] at hf
    have hlen := hf.length_eq
    refine ⟨by rw [hlen, hl], ?_⟩
    funext k
    have hke : (k : ℕ) < (eps S (36 * u + 3 * E.W.b₂ * d ^ 2) (d ^ 2)).length := by
      rw [hlen]
      exact hk k
    have hb := List.Forall₂.get hf hke (hk k)
    have h3 := h2 k u d x y hxy hud hd0 hx
    rw [List.get_eq_getElem, List.get_eq_getElem] at hb
    rw [← hb] at h3
    have hg : (eps S (36 * u + 3 * E.W.b₂ * d ^ 2) (d ^ 2)).getD k false =
        (eps S (36 * u + 3 * E.W.b₂ * d ^ 2) (d ^ 2))[(k : ℕ)] := by
      rw [List.getD_eq_getElem?_getD, List.getElem?_eq_getElem hke]
      rfl
    show (if _ then (1 : ZMod 2) else 0) = η k (.some x y hxy)
    rw [hg]
    have two (a : ZMod 2) : a = 0 ∨ a = 1 := by
      revert a
      decide
    cases hbb : (eps S (36 * u + 3 * E.W.b₂ * d ^ 2) (d ^ 2))[(k : ℕ)]
    · rw [hbb] at h3
      rw [h3.2 (by decide)]
      rfl
    · rw [hbb] at h3
      rcases two (η k (.some x y hxy)) with h4 | h4
      · exact absurd rfl (h3.1 h4)
      · rw [h4]
        rfl

theorem process_ok {E : Cv} {auxs : List Aux} {φ : E.Pt →+ (Fin (maxDim auxs) → ZMod 2)} (hφ : Computes E auxs φ) {S : Sifter}
    {As : List E.Pt} (st : StOk E (maxDim auxs) φ auxs S As) {P : P2} {A : E.Pt} (hP : Spec.Given E P A) :
    ∃ S', process S P = some S' ∧ StOk E (maxDim auxs) φ auxs S' (As ++ [A]) := by
  obtain ⟨u, d, x, y, hxy, rfl, hud, hd, hx, hz, hu⟩ := given_shape hP
  obtain ⟨hI, hr, ha, rows, span⟩ := st
  obtain ⟨hlen, hvec⟩ := hφ u d x y hxy hud hd.ne' hx S hI ha
  obtain ⟨e1, e2⟩ := elim_step rows hlen
  have hset : φ '' {B | B ∈ As ++ [Affine.Point.some x y hxy]} = φ '' {B | B ∈ As} ∪ {φ (.some x y hxy)} := by
    ext v
    simp [or_and_right, exists_or, eq_comm, or_comm]
  have hspan : Submodule.span (ZMod 2) (φ '' {B | B ∈ As ++ [Affine.Point.some x y hxy]}) =
      Spn (maxDim auxs) S.rows ⊔ Submodule.span (ZMod 2) {φ (.some x y hxy)} := by
    rw [hset, Submodule.span_union, span]
  unfold process
  rw [hz]
  dsimp only
  have hd' : (d == 0) = false := by simpa using hd.ne'
  rw [hd', hu, hr, show d * d = d ^ 2 by ring]
  rw [hvec] at e1 e2
  simp only [Bool.false_eq_true, if_false]
  split
  · rename_i h
    refine ⟨S, rfl, hI, hr, ha, rows, ?_⟩
    rw [hspan, eq_comm, sup_eq_left, Submodule.span_singleton_le_iff_mem]
    exact e1 h
  · rename_i j h
    obtain ⟨f1, f2, f3⟩ := e2 j h
    rw [ha, if_pos f1]
    exact ⟨_, rfl, hI, rfl, rfl, f2, by rw [hspan]; exact f3⟩

theorem processAll_ok {E : Cv} {auxs : List Aux} {φ : E.Pt →+ (Fin (maxDim auxs) → ZMod 2)} (hφ : Computes E auxs φ) :
    ∀ {Ps : List P2} {Bs : List E.Pt}, List.Forall₂ (Spec.Given E) Ps Bs → ∀ (S : Sifter) (As : List E.Pt),
    StOk E (maxDim auxs) φ auxs S As → ∃ S', processAll S Ps = some S' ∧ StOk E (maxDim auxs) φ auxs S' (As ++ Bs)
  | _, _, .nil, S, As, st => ⟨S, rfl, by simpa using st⟩
  | _, _, .cons (a := P) (b := B) (l₁ := Ps) (l₂ := Bs) hP hPs, S, As, st => by
    obtain ⟨S', h1, st'⟩ := process_ok hφ st hP
    obtain ⟨S'', h2, st''⟩ := processAll_ok hφ hPs S' _ st'
    refine ⟨S'', ?_, by simpa using st''⟩
    rw [processAll, h1]
    exact h2

/-! ## The theorems -/

/-- **C112.** For every curve with `Δ ≠ 0`, every number of auxiliary primes and every list of primes `≥ 5` that is long enough, there
is one homomorphism from `E(ℚ)` to `(ℤ/2)^D` with `D = max_dim_im`, whose components are local characters at the auxiliary primes, such
that for every list of rational points other than the origin the calls of `process` succeed without a write outside the matrix, and
`getrank` is then the dimension of the span of the images of the points. -/
theorem C112_rank (E : Cv) (hΔ : E.W.Δ ≠ 0) (na : ℕ) (primes : List ℕ) (hp : ∀ p ∈ primes, p.Prime ∧ 5 ≤ p) (S : Sifter)
    (hS : Sifter.init (Cd.ofAi E) na primes = some S) :
    S.auxs.length = na ∧ ∃ φ : E.Pt →+ (Fin (maxDim S.auxs) → ZMod 2),
      (∀ k, ∃ p ∈ primes, Spec.LocalChar E p (fun A => φ A k)) ∧
      ∀ (Ps : List P2) (As : List E.Pt), List.Forall₂ (Spec.Given E) Ps As →
        ∃ S', processAll S Ps = some S' ∧ S'.rank = finrank (ZMod 2) (Submodule.span (ZMod 2) (φ '' {A | A ∈ As})) := by
  rw [Sifter.init, Cd.ofAi_eq, if_neg hΔ, Option.map_eq_some_iff] at hS
  obtain ⟨l, hl, rfl⟩ := hS
  obtain ⟨hn, hok⟩ := findAux_ok na primes hp l hl
  have hok' : ∀ a ∈ l, AuxOk E a := fun a ha => (hok a ha).1
  obtain ⟨φ, h1, h2⟩ := exists_phi hok'
  refine ⟨hn, φ, ?_, ?_⟩
  · intro k
    obtain ⟨a, ha, h⟩ := h1 k
    exact ⟨a.p, (hok a ha).2, h⟩
  · intro Ps As hPs
    obtain ⟨S', h3, st⟩ := processAll_ok h2 hPs ⟨E.W.c₄, 3 * E.W.b₂, l, []⟩ [] ⟨rfl, rfl, rfl, ⟨by simp, List.Pairwise.nil⟩, by
      simp [Spn]⟩
    refine ⟨S', h3, ?_⟩
    rw [Sifter.rank, ← rank_eq _ st.rows, st.span, List.nil_append]

/-- the rank is a lower bound: if it equals the number of points, these are independent modulo `2E(ℚ)` -/
theorem C112_independent (E : Cv) (hΔ : E.W.Δ ≠ 0) (na : ℕ) (primes : List ℕ) (hp : ∀ p ∈ primes, p.Prime ∧ 5 ≤ p) (S S' : Sifter)
    (hS : Sifter.init (Cd.ofAi E) na primes = some S) (Ps : List P2) (As : List E.Pt) (hPs : List.Forall₂ (Spec.Given E) Ps As)
    (hS' : processAll S Ps = some S') (hrank : S'.rank = Ps.length) : Spec.Independent As := by
  obtain ⟨-, φ, -, h⟩ := C112_rank E hΔ na primes hp S hS
  obtain ⟨S'', h1, h2⟩ := h Ps As hPs
  rw [hS', Option.some.injEq] at h1
  subst h1
  rw [hrank, hPs.length_eq] at h2
  have hset : φ '' {A | A ∈ As} = Set.range (fun i => φ (As.get i)) := by
    ext v
    constructor
    · rintro ⟨A, hA, rfl⟩
      obtain ⟨i, rfl⟩ := List.mem_iff_get.1 hA
      exact ⟨i, rfl⟩
    · rintro ⟨i, rfl⟩
      exact ⟨_, List.get_mem As i, rfl⟩
  rw [hset] at h2
  have hli : LinearIndependent (ZMod 2) (fun i => φ (As.get i)) := by
    rw [linearIndependent_iff_card_eq_finrank_span, Fintype.card_fin]
    exact h2
  intro c B hB i
  have h3 := congrArg φ hB
  have two : (2 : ℕ) • φ B = 0 := by
    funext k
    have t (a : ZMod 2) : (2 : ℕ) • a = 0 := by
      revert a
      decide
    exact t _
  rw [map_nsmul, two, map_sum] at h3
  have h4 : ∑ i, ((c i : ℤ) : ZMod 2) • φ (As.get i) = 0 := by
    rw [← h3]
    refine Finset.sum_congr rfl (fun j _ => ?_)
    rw [map_zsmul, Int.cast_smul_eq_zsmul]
  have h5 := Fintype.linearIndependent_iff.1 hli (fun i => ((c i : ℤ) : ZMod 2)) h4 i
  exact (ZMod.intCast_eq_zero_iff_even).1 h5

/-- `nrootscubic` returns the sorted list of all the roots modulo the prime `p` (with one of the three roots repeated if it is double) -/
theorem C112_nrootscubic {p : ℕ} (hp : p.Prime) (b c d : ℤ) :
    (∀ t, t ∈ nrootscubic b c d p ↔ 0 ≤ t ∧ t < p ∧ (p : ℤ) ∣ t ^ 3 + b * t ^ 2 + c * t + d) ∧
    (nrootscubic b c d p).Pairwise (· ≤ ·) ∧
    (nrootscubic b c d p).length ≤ 3 := by
  have h := nrootscubic_ok hp b c d
  refine ⟨?_, h.sorted, ?_⟩
  · intro t
    rw [h.mem, cub, show ((t + b) * t + c) * t + d = t ^ 3 + b * t ^ 2 + c * t + d by ring]
  · rcases h.shape with h | ⟨t, h⟩ | ⟨t0, t1, t2, h, -⟩ <;> rw [h] <;> simp

/-- the hypothesis `A ≠ 0` is needed: for the origin `process` divides by zero, whatever the state -/
theorem C112_origin (S : Sifter) : process S ⟨0, 1, 0⟩ = none := by
  simp [process]

/-! ## Examples -/

/-- the curve 389a1 -/
def E389 : Cv := ⟨0, 1, 1, -2, 0⟩

-- two auxiliary primes; the points (0,0) and (-1,1) are independent, the third one is dependent
example : (Sifter.init (Cd.ofAi E389) 2 [5, 7, 11, 13, 17, 19, 23, 29]).bind
    (fun S => (processAll S [⟨0, 0, 1⟩, ⟨-1, 1, 1⟩, ⟨1, 0, 1⟩]).map (fun S' => (S.auxs.map (fun a => a.p), maxDim S.auxs, S'.rank))) =
    some ([11, 17], 4, 2) := by decide +kernel

theorem E389_disc : E389.W.Δ ≠ 0 := by
  simp only [E389, Cv.W, WeierstrassCurve.Δ, WeierstrassCurve.b₂, WeierstrassCurve.b₄, WeierstrassCurve.b₆, WeierstrassCurve.b₈]
  norm_num

/-- the two points of 389a1 are independent modulo `2E(ℚ)` -/
example : ∃ A B : E389.Pt, Rep E389 ⟨0, 0, 1⟩ A ∧ Rep E389 ⟨-1, 1, 1⟩ B ∧ Spec.Independent [A, B] := by
  obtain ⟨A, hA, -⟩ := (Props.C31_represents E389 E389_disc).1 ⟨0, 0, 1⟩ (by decide +kernel)
  obtain ⟨B, hB, -⟩ := (Props.C31_represents E389 E389_disc).1 ⟨-1, 1, 1⟩ (by decide +kernel)
  have nz {P : P2} {A : E389.Pt} (h : Rep E389 P A) (hz : P.Z ≠ 0) : A ≠ 0 := by
    rintro rfl
    exact hz (Rep.zero_iff.1 h).2.2
  refine ⟨A, B, hA, hB, ?_⟩
  obtain ⟨S, hS⟩ : ∃ S, Sifter.init (Cd.ofAi E389) 2 [11, 17] = some S := ⟨_, rfl⟩
  have h2 : (Sifter.init (Cd.ofAi E389) 2 [11, 17]).bind (fun S => (processAll S [⟨0, 0, 1⟩, ⟨-1, 1, 1⟩]).map Sifter.rank) =
      some 2 := by decide +kernel
  rw [hS, Option.bind_some, Option.map_eq_some_iff] at h2
  obtain ⟨S', h3, h4⟩ := h2
  refine C112_independent E389 E389_disc 2 [11, 17] (by
    intro p hp
    simp only [List.mem_cons, List.not_mem_nil, or_false] at hp
    rcases hp with rfl | rfl <;> norm_num) S S' hS [⟨0, 0, 1⟩, ⟨-1, 1, 1⟩] [A, B] ?_ h3 h4
  exact .cons ⟨by decide +kernel, ⟨by decide, by decide⟩, hA, nz hA (by decide)⟩
    (.cons ⟨by decide +kernel, ⟨by decide, by decide⟩, hB, nz hB (by decide)⟩ .nil)

example : nrootscubic 0 0 (-1) 7 = [1, 2, 4] := by decide +kernel

end Eclib.Sift
