import Verif.Rank2.Model
import Verif.Bits.MakeNum
import Verif.Bits.Props
import Mathlib.Data.Set.Card

/-!
# The loops of `find_elsgens` compute a basis of a subgroup
-/

namespace Eclib.Rank2

open Eclib.Sqf (makenum makeindex decP Base suppOf makenum_eq Sq)
open Eclib.Bits

/-- what the lists `elsgens` are to be for a set of squarefree numbers that is a group modulo
squares -/
structure IsBasis (S : ℤ → Prop) (gens : List ℤ) : Prop where
  /-- the generators belong to the set -/
  mem : ∀ D ∈ gens, S D
  /-- every element is the product of some of them, up to a square -/
  gen : ∀ D, S D → ∃ l : List ℤ, l.Sublist gens ∧ IsSquare (D * l.prod)
  /-- they are independent -/
  ind : ∀ l : List ℤ, l.Sublist gens → IsSquare l.prod → l = []
  /-- the number of elements -/
  card : {D | S D}.ncard = 2 ^ gens.length

theorem span_lt {G : List ℕ} {n : ℕ} (hG : ∀ g ∈ G, g < 2 ^ n) {x : ℕ} (h : Span G x) : x < 2 ^ n := by
  obtain ⟨l, hl, rfl⟩ := h
  have : ∀ g ∈ l, g < 2 ^ n := fun g hg => hG g (hl.subset hg)
  clear hl
  induction l with
  | nil => simp
  | cons a l ih =>
    rw [List.foldr_cons]
    exact Nat.xor_lt_two_pow (this a List.mem_cons_self) (ih fun g hg => this g (List.mem_cons_of_mem _ hg))

theorem span_finite (G : List ℕ) : {x | Span G x}.Finite := by
  obtain ⟨n, hn⟩ : ∃ n, ∀ g ∈ G, g < 2 ^ n := by
    induction G with
    | nil => exact ⟨0, by simp⟩
    | cons a G ih =>
      obtain ⟨n, hn⟩ := ih
      refine ⟨a + n, fun g hg => ?_⟩
      rcases List.mem_cons.1 hg with rfl | hg
      · exact Nat.lt_two_pow_self.trans_le (Nat.pow_le_pow_right (by norm_num) (by omega))
      · exact (hn g hg).trans_le (Nat.pow_le_pow_right (by norm_num) (by omega))
  exact (Set.finite_lt_nat (2 ^ n)).subset fun x hx => span_lt hn hx

theorem span_card {pg : List (ℕ × ℕ)} (h : Tri pg) :
    {x | Span (pg.map Prod.snd) x}.ncard = 2 ^ pg.length := by
  induction pg with
  | nil =>
    have : {x | Span (List.map Prod.snd ([] : List (ℕ × ℕ))) x} = {0} := by
      ext x; simp [span_nil]
    rw [this]; simp
  | cons b pg ih =>
    obtain ⟨h1, h2, h3⟩ := tri_cons h
    have e : {x | Span ((b :: pg).map Prod.snd) x} =
        {x | Span (pg.map Prod.snd) x} ∪ (fun x => x ^^^ b.2) '' {x | Span (pg.map Prod.snd) x} := by
      ext x
      rw [List.map_cons, Set.mem_ofPred_eq, span_cons, Set.mem_union, Set.mem_image]
      refine or_congr Iff.rfl ⟨fun hx => ⟨_, hx, xor_xor_self _ _⟩, ?_⟩
      rintro ⟨y, hy, rfl⟩
      rw [xor_xor_self]
      exact hy
    have hb : ∀ x, Span (pg.map Prod.snd) x → x.testBit b.1 = false := fun x hx =>
      span_bit (by intro g hg; obtain ⟨c, hc, rfl⟩ := List.mem_map.1 hg; exact h2 c hc) hx
    rw [e, Set.ncard_union_eq _ (span_finite _) ((span_finite _).image _), Set.ncard_image_of_injective, ih h3,
      List.length_cons, pow_succ]
    · omega
    · intro x y hxy
      have := congrArg (fun z => z ^^^ b.2) hxy
      simpa [xor_xor_self] using this
    · rw [Set.disjoint_left]
      rintro x hx ⟨y, hy, rfl⟩
      have := hb _ hx
      rw [Nat.testBit_xor, hb _ hy, h1] at this
      simp at this

theorem decP_zero (s : List ℤ) : decP s 0 = 1 := by
  induction s with
  | nil => rfl
  | cons p s ih => rw [decP, Nat.zero_div, ih]; simp

theorem dec_ne {ps : List ℤ} (h : Base ps) (m : ℕ) : decP (-1 :: ps) m ≠ 0 := (Sqf.squarefree_dec h m).ne_zero

theorem sq_prod {ps : List ℤ} (h : Base ps) (l : List ℕ) :
    Sq (decP (-1 :: ps) (l.foldr (· ^^^ ·) 0)) ((l.map (decP (-1 :: ps))).prod) := by
  induction l with
  | nil =>
    simp only [List.foldr_nil, List.map_nil, List.prod_nil, decP_zero]
    exact ⟨1, rfl⟩
  | cons a l ih =>
    rw [List.foldr_cons, List.map_cons, List.prod_cons]
    have h1 := Sqf.sq_decP_xor (-1 :: ps) a (l.foldr (· ^^^ ·) 0)
    exact h1.symm.trans ((Sq.refl _).mul ih) (mul_ne_zero (dec_ne h _) (dec_ne h _))

/-! ## the pivots -/

theorem setPivot_spec {n : ℕ} (hn : n ≤ 31) {v : ℕ} (hv : v < 2 ^ n) (hv0 : v ≠ 0) (mask : ℕ) :
    ∃ j, j < n ∧ v.testBit j = true ∧ setPivot n v mask = some (mask ||| 2 ^ j) := by
  induction n with
  | zero => exact absurd (by simpa using hv) hv0
  | succ n ih =>
    rw [setPivot, if_pos (by omega)]
    by_cases hb : v.testBit n = true
    · exact ⟨n, by omega, hb, by rw [if_pos hb]⟩
    · rw [if_neg hb]
      obtain ⟨j, h1, h2, h3⟩ := ih (by omega) (by
        by_contra hc
        exact hb (Nat.testBit_of_two_pow_le_and_two_pow_add_one_gt (by omega) hv))
      exact ⟨j, by omega, h2, h3⟩

section
variable {ps : List ℤ} (S : ℕ → Prop)

/-- the state of the loops: a triangular system of elements of the group -/
def Inv (ps : List ℤ) (S : ℕ → Prop) (s : ℕ × List ℤ) : Prop :=
  ∃ pg : List (ℕ × ℕ), Tri pg ∧ s.2 = pg.map (fun a => decP (-1 :: ps) a.2) ∧
    (∀ a ∈ pg, a.2 < 2 ^ (ps.length + 1) ∧ S a.2) ∧ ∀ j, s.1.testBit j = true ↔ ∃ a ∈ pg, a.1 = j

theorem Inv.mono {S S' : ℕ → Prop} (h : ∀ m, S m → S' m) {s : ℕ × List ℤ} (hI : Inv ps S s) : Inv ps S' s := by
  obtain ⟨pg, h1, h2, h3, h4⟩ := hI
  exact ⟨pg, h1, h2, fun a ha => ⟨(h3 a ha).1, h _ (h3 a ha).2⟩, h4⟩

theorem inv_nil : Inv ps S (0, []) :=
  ⟨[], ⟨by simp, List.Pairwise.nil⟩, rfl, by simp, by simp⟩

theorem and_zero_iff {a b : ℕ} : a &&& b = 0 ↔ ∀ j, a.testBit j = true → b.testBit j = false := by
  constructor
  · intro h j hj
    have := congrArg (fun z => z.testBit j) h
    simp only [Nat.testBit_and, hj, Nat.zero_testBit, Bool.true_and] at this
    exact this
  · intro h
    apply Nat.eq_of_testBit_eq
    intro j
    rw [Nat.testBit_and, Nat.zero_testBit]
    by_cases hj : a.testBit j = true
    · rw [hj, h j hj]; rfl
    · rw [Bool.not_eq_true] at hj
      rw [hj]; rfl

theorem inv_push (hlen : ps.length + 1 ≤ 30) {s : ℕ × List ℤ} (hI : Inv ps S s) {v : ℕ}
    (hv : v < 2 ^ (ps.length + 1)) (hv0 : v ≠ 0) (hm : s.1 &&& v = 0) (hS : S v) :
    ∃ mask', setPivot (-1 :: ps : List ℤ).length v s.1 = some mask' ∧
      Inv ps S (mask', s.2 ++ [decP (-1 :: ps) v]) ∧ mask' &&& v ≠ 0 ∧
      ∀ j, s.1.testBit j = true → mask'.testBit j = true := by
  obtain ⟨pg, h1, h2, h3, h4⟩ := hI
  obtain ⟨j, g1, g2, g3⟩ := setPivot_spec (n := (-1 :: ps : List ℤ).length) (by simp; omega) (by simpa using hv) hv0 s.1
  rw [and_zero_iff] at hm
  refine ⟨_, g3, ⟨pg ++ [(j, v)], tri_concat h1 g2 fun a ha => hm _ ((h4 _).2 ⟨a, ha, rfl⟩), ?_, ?_, ?_⟩, ?_, ?_⟩
  · simp [h2]
  · intro a ha
    rcases List.mem_append.1 ha with ha | ha
    · exact h3 a ha
    · rw [List.mem_singleton] at ha
      subst ha
      exact ⟨hv, hS⟩
  · intro i
    simp only [Nat.testBit_or, Bool.or_eq_true, h4, Nat.testBit_two_pow, decide_eq_true_eq, List.mem_append,
      List.mem_singleton]
    constructor
    · rintro (⟨a, ha, rfl⟩ | rfl)
      · exact ⟨a, Or.inl ha, rfl⟩
      · exact ⟨_, Or.inr rfl, rfl⟩
    · rintro ⟨a, ha | rfl, rfl⟩
      · exact Or.inl ⟨a, ha, rfl⟩
      · exact Or.inr rfl
  · intro h0
    have := (and_zero_iff.1 h0) j (by simp)
    rw [g2] at this
    exact absurd this (by decide)
  · intro i hi
    simp [Nat.testBit_or, hi]

theorem elsStep_spec (hb : Base ps) (hlen : ps.length + 1 ≤ 30) {sol : ℤ → ℤ → Option Bool} {d : ℤ}
    (hsol : ∀ m < 2 ^ (ps.length + 1), ∃ b, sol (decP (-1 :: ps) m) (d.fdiv (decP (-1 :: ps) m)) = some b ∧ (b = true ↔ S m))
    {s : ℕ × List ℤ} (hI : Inv ps S s) {v : ℕ} (hv : v < 2 ^ (ps.length + 1)) (hv0 : v ≠ 0) :
    ∃ s', elsStep sol (-1 :: ps) d v s = some s' ∧ Inv ps S s' ∧ (S v → s'.1 &&& v ≠ 0) ∧
      (∀ j, s.1.testBit j = true → s'.1.testBit j = true) ∧ s.2 <+: s'.2 := by
  unfold elsStep
  by_cases hm : s.1 &&& v ≠ 0
  · rw [if_pos hm]
    exact ⟨s, rfl, hI, fun _ => hm, fun _ h => h, List.prefix_refl _⟩
  · rw [if_neg hm]
    push Not at hm
    have e : makenum (-1 :: ps) v = some (decP (-1 :: ps) v) :=
      makenum_eq true hb (by simp [suppOf]; omega) v
    obtain ⟨b, hb1, hb2⟩ := hsol v hv
    rw [e]
    simp only [hb1]
    cases b with
    | false => exact ⟨s, rfl, hI, fun h => absurd (hb2.2 h) (by simp), fun _ h => h, List.prefix_refl _⟩
    | true =>
      obtain ⟨mask', g1, g2, g3, g4⟩ := inv_push S hlen hI hv hv0 hm (hb2.1 rfl)
      simp only [g1]
      exact ⟨_, rfl, g2, fun _ => g3, g4, List.prefix_append _ _⟩

theorem elsLoop_spec (hb : Base ps) (hlen : ps.length + 1 ≤ 30) {sol : ℤ → ℤ → Option Bool} {d : ℤ}
    (hsol : ∀ m < 2 ^ (ps.length + 1), ∃ b, sol (decP (-1 :: ps) m) (d.fdiv (decP (-1 :: ps) m)) = some b ∧ (b = true ↔ S m))
    (istep : ℕ) (hstep : 1 ≤ istep) (n : ℕ) {s : ℕ × List ℤ} (hI : Inv ps S s) {v : ℕ}
    (hv : v + n * istep < 2 ^ (ps.length + 1) + istep) (hv0 : v ≠ 0) :
    ∃ s', elsLoop sol (-1 :: ps) d istep n v s = some s' ∧ Inv ps S s' ∧
      (∀ k < n, S (v + k * istep) → s'.1 &&& (v + k * istep) ≠ 0) ∧
      (∀ j, s.1.testBit j = true → s'.1.testBit j = true) ∧ s.2 <+: s'.2 := by
  induction n generalizing s v with
  | zero => exact ⟨s, rfl, hI, by simp, fun _ h => h, List.prefix_refl _⟩
  | succ n ih =>
    have hn : (n + 1) * istep = n * istep + istep := by ring
    obtain ⟨s1, g1, g2, g3, g4, g5⟩ := elsStep_spec S hb hlen hsol hI (v := v) (by rw [hn] at hv; omega) hv0
    obtain ⟨s2, k1, k2, k3, k4, k5⟩ := ih g2 (v := v + istep) (by rw [hn] at hv; omega) (by omega)
    refine ⟨s2, by rw [elsLoop, g1]; exact k1, k2, ?_, fun j hj => k4 j (g4 j hj), g5.trans k5⟩
    intro k hk hS h0
    rcases k with _ | k
    · rw [Nat.zero_mul, Nat.add_zero] at hS h0
      apply g3 hS
      rw [and_zero_iff] at h0 ⊢
      exact fun j hj => h0 j (k4 j hj)
    · have e : v + istep + k * istep = v + (k + 1) * istep := by ring
      have := k3 k (by omega)
      rw [e] at this
      exact this hS h0

/-- the whole loop, started from any triangular system of elements of the group -/
theorem elsLoop_full (hb : Base ps) (hlen : ps.length + 1 ≤ 30) {sol : ℤ → ℤ → Option Bool} {d : ℤ}
    (hsol : ∀ m < 2 ^ (ps.length + 1), ∃ b, sol (decP (-1 :: ps) m) (d.fdiv (decP (-1 :: ps) m)) = some b ∧ (b = true ↔ S m))
    (hx : ∀ a b, a < 2 ^ (ps.length + 1) → b < 2 ^ (ps.length + 1) → S a → S b → S (a ^^^ b)) (h0 : S 0)
    (istep : ℕ) (hstep : istep = 1 ∨ istep = 2) (heven : istep = 2 → ∀ m < 2 ^ (ps.length + 1), S m → m % 2 = 0)
    {s : ℕ × List ℤ} (hI : Inv ps S s) :
    ∃ s' pg, elsLoop sol (-1 :: ps) d istep ((2 ^ (-1 :: ps : List ℤ).length - 1) / istep) istep s = some s' ∧
      Tri pg ∧ s'.2 = pg.map (fun a => decP (-1 :: ps) a.2) ∧ (∀ a ∈ pg, a.2 < 2 ^ (ps.length + 1)) ∧
      (∀ m, m < 2 ^ (ps.length + 1) ∧ S m ↔ Span (pg.map Prod.snd) m) ∧ s.2 <+: s'.2 ∧
      ∀ j, s'.1.testBit j = true ↔ ∃ a ∈ pg, a.1 = j := by
  have hp : 1 ≤ 2 ^ (ps.length + 1) := Nat.one_le_two_pow
  rw [List.length_cons]
  obtain ⟨s', g1, ⟨pg, t1, t2, t3, t4⟩, g3, -, g5⟩ := elsLoop_spec S hb hlen hsol istep (by omega)
    ((2 ^ (ps.length + 1) - 1) / istep) hI (v := istep)
    (by have := Nat.div_mul_le_self (2 ^ (ps.length + 1) - 1) istep; omega) (by omega)
  have hspan : ∀ m, Span (pg.map Prod.snd) m → m < 2 ^ (ps.length + 1) ∧ S m := by
    rintro m ⟨l, hl, rfl⟩
    have hm : ∀ g ∈ l, g < 2 ^ (ps.length + 1) ∧ S g := by
      intro g hg
      obtain ⟨a, ha, rfl⟩ := List.mem_map.1 (hl.subset hg)
      exact t3 a ha
    clear hl
    induction l with
    | nil => exact ⟨hp, h0⟩
    | cons a l ih =>
      obtain ⟨u1, u2⟩ := ih fun g hg => hm g (List.mem_cons_of_mem _ hg)
      obtain ⟨v1, v2⟩ := hm a List.mem_cons_self
      rw [List.foldr_cons]
      exact ⟨Nat.xor_lt_two_pow v1 u1, hx _ _ v1 u1 v2 u2⟩
  refine ⟨s', pg, g1, t1, t2, fun a ha => (t3 a ha).1, fun m => ⟨fun ⟨hm, hS⟩ => ?_, hspan m⟩, g5, t4⟩
  rw [← reduceP_eq_zero t1]
  have hr := span_reduceP pg m
  obtain ⟨r1, r2⟩ := hspan _ hr
  have e : m ^^^ (m ^^^ reduceP pg m) = reduceP pg m := by rw [← Nat.xor_assoc, Nat.xor_self, Nat.zero_xor]
  have q1 : reduceP pg m < 2 ^ (ps.length + 1) := by rw [← e]; exact Nat.xor_lt_two_pow hm r1
  have q2 : S (reduceP pg m) := by rw [← e]; exact hx _ _ hm r1 hS r2
  by_contra hne
  have hc := reduceP_clear t1 m
  generalize reduceP pg m = r at *
  obtain ⟨k, hk, hk2⟩ : ∃ k < (2 ^ (ps.length + 1) - 1) / istep, istep + k * istep = r := by
    rcases hstep with rfl | rfl
    · exact ⟨r - 1, by omega, by omega⟩
    · have := heven rfl r q1 q2
      exact ⟨r / 2 - 1, by omega, by omega⟩
  have := g3 k hk (by rw [hk2]; exact q2)
  rw [hk2] at this
  apply this
  rw [and_zero_iff]
  intro j hj
  obtain ⟨a, ha, rfl⟩ := (t4 j).1 hj
  exact hc a ha

/-- the torsion loop -/
theorem torsLoop_spec (hlen : ps.length + 1 ≤ 30) {d : ℤ} (tg : List (Option (ℤ × ℤ)))
    (ht : ∀ T, some T ∈ tg → ∃ m, m < 2 ^ (ps.length + 1) ∧ S m ∧
      makeindex (-1 :: ps) (if T.1 = 0 then d else T.1) = some (m, decP (-1 :: ps) m))
    {s : ℕ × List ℤ} (hI : Inv ps S s) :
    ∃ s', torsLoop (-1 :: ps) d tg s = some s' ∧ Inv ps S s' := by
  induction tg generalizing s with
  | nil => exact ⟨s, rfl, hI⟩
  | cons a tg ih =>
    have ih' := fun {s} => ih (fun T hT => ht T (List.mem_cons_of_mem _ hT)) (s := s)
    rcases a with _ | T
    · rw [torsLoop]
      exact ih' hI
    · obtain ⟨m, h1, h2, h3⟩ := ht T List.mem_cons_self
      obtain ⟨mask, gens⟩ := s
      rw [torsLoop]
      simp only [h3]
      by_cases hm : mask &&& m ≠ 0
      · rw [if_pos hm]; exact ih' hI
      · rw [if_neg hm]
        push Not at hm
        by_cases hz : m ≠ 0
        · rw [if_pos hz]
          obtain ⟨mask', g1, g2, -, -⟩ := inv_push S hlen hI h1 hz hm h2
          simp only [g1]
          exact ih' g2
        · rw [if_neg hz]; exact ih' hI

end

/-- a triangular system gives a basis -/
theorem basis_of {ps : List ℤ} (hb : Base ps) {S : ℤ → Prop} {pg : List (ℕ × ℕ)} (ht : Tri pg)
    (hlt : ∀ a ∈ pg, a.2 < 2 ^ (ps.length + 1))
    (hS : ∀ D, S D ↔ ∃ m, m < 2 ^ (ps.length + 1) ∧ D = decP (-1 :: ps) m ∧ Span (pg.map Prod.snd) m) :
    IsBasis S (pg.map fun a => decP (-1 :: ps) a.2) := by
  have e : (pg.map fun a => decP (-1 :: ps) a.2) = (pg.map Prod.snd).map (decP (-1 :: ps)) := by
    rw [List.map_map]; rfl
  have hltG : ∀ g ∈ pg.map Prod.snd, g < 2 ^ (ps.length + 1) := by
    intro g hg
    obtain ⟨a, ha, rfl⟩ := List.mem_map.1 hg
    exact hlt a ha
  refine ⟨?_, ?_, ?_, ?_⟩
  · intro D hD
    obtain ⟨a, ha, rfl⟩ := List.mem_map.1 hD
    exact (hS _).2 ⟨a.2, hlt a ha, rfl, span_mem (List.mem_map_of_mem ha)⟩
  · intro D hD
    obtain ⟨m, -, rfl, l, hl, rfl⟩ := (hS D).1 hD
    exact ⟨l.map (decP (-1 :: ps)), by rw [e]; exact hl.map _, sq_prod hb l⟩
  · intro l hl hsq
    rw [e, List.sublist_map_iff] at hl
    obtain ⟨l', hl', rfl⟩ := hl
    have h1 := sq_prod hb l'
    have h2 : Sq (decP (-1 :: ps) (l'.foldr (· ^^^ ·) 0)) 1 := by
      refine h1.trans ?_ ?_
      · unfold Sq; rwa [mul_one]
      · rw [Ne, List.prod_eq_zero_iff]
        intro h0
        obtain ⟨a, -, ha⟩ := List.mem_map.1 h0
        exact dec_ne hb a ha
    have h3 := Sqf.sq_squarefree (Sqf.squarefree_dec hb _) squarefree_one h2
    have h4 : l'.foldr (· ^^^ ·) 0 = 0 :=
      (Sqf.dec_one hb (span_lt (fun g hg => hltG g (hl'.subset hg)) ⟨l', List.Sublist.refl _, rfl⟩)).1 h3
    rw [tri_indep ht l' hl' h4, List.map_nil]
  · have : {D | S D} = decP (-1 :: ps) '' {m | Span (pg.map Prod.snd) m} := by
      ext D
      rw [Set.mem_ofPred_eq, hS, Set.mem_image]
      constructor
      · rintro ⟨m, -, rfl, hm⟩; exact ⟨m, hm, rfl⟩
      · rintro ⟨m, hm, rfl⟩; exact ⟨m, span_lt hltG hm, rfl, hm⟩
    rw [this, Set.InjOn.ncard_image, span_card ht, List.length_map]
    intro a ha b hb' hab
    exact Sqf.dec_inj hb (span_lt hltG ha) (span_lt hltG hb') hab

end Eclib.Rank2
