import Mathlib.Data.Nat.Bitwise
import Mathlib.Data.List.Sublists
import Mathlib.Tactic.Ring

/-!
# Triangular systems of vectors over the field with two elements, as bit masks
-/

namespace Eclib.Bits

/-- the span of a list of vectors: the sums of its sublists -/
def Span (G : List ℕ) (x : ℕ) : Prop := ∃ l : List ℕ, l.Sublist G ∧ l.foldr (· ^^^ ·) 0 = x

theorem span_nil {x : ℕ} : Span [] x ↔ x = 0 := by
  constructor
  · rintro ⟨l, hl, rfl⟩
    rw [List.sublist_nil] at hl; subst hl; rfl
  · rintro rfl; exact ⟨[], List.Sublist.refl _, rfl⟩

theorem span_cons {g : ℕ} {G : List ℕ} {x : ℕ} :
    Span (g :: G) x ↔ Span G x ∨ Span G (x ^^^ g) := by
  constructor
  · rintro ⟨l, hl, rfl⟩
    rw [List.sublist_cons_iff] at hl
    rcases hl with h | ⟨r, rfl, h⟩
    · exact Or.inl ⟨l, h, rfl⟩
    · refine Or.inr ⟨r, h, ?_⟩
      rw [List.foldr_cons, Nat.xor_comm g, Nat.xor_assoc, Nat.xor_self, Nat.xor_zero]
  · rintro (⟨l, hl, rfl⟩ | ⟨l, hl, h⟩)
    · exact ⟨l, hl.cons g, rfl⟩
    · refine ⟨g :: l, hl.cons_cons g, ?_⟩
      rw [List.foldr_cons, h, Nat.xor_comm, Nat.xor_assoc, Nat.xor_self, Nat.xor_zero]

theorem xor_right_comm (a b c : ℕ) : a ^^^ b ^^^ c = a ^^^ c ^^^ b := by
  rw [Nat.xor_assoc, Nat.xor_comm b c, ← Nat.xor_assoc]

theorem span_zero (G : List ℕ) : Span G 0 := ⟨[], List.nil_sublist _, rfl⟩

theorem span_xor {G : List ℕ} {x y : ℕ} (hx : Span G x) (hy : Span G y) : Span G (x ^^^ y) := by
  induction G generalizing x y with
  | nil => rw [span_nil] at *; subst hx; subst hy; rfl
  | cons g G ih =>
    rw [span_cons] at *
    rcases hx with hx | hx <;> rcases hy with hy | hy
    · exact Or.inl (ih hx hy)
    · right; rw [Nat.xor_assoc]; exact ih hx hy
    · right; rw [xor_right_comm]; exact ih hx hy
    · left
      have := ih hx hy
      rwa [xor_right_comm, Nat.xor_assoc, Nat.xor_assoc, Nat.xor_self, Nat.xor_zero] at this

theorem span_mem {G : List ℕ} {g : ℕ} (h : g ∈ G) : Span G g :=
  ⟨[g], List.singleton_sublist.2 h, by simp⟩

theorem span_concat {G : List ℕ} {g x : ℕ} :
    Span (G ++ [g]) x ↔ Span G x ∨ Span G (x ^^^ g) := by
  induction G generalizing x with
  | nil => rw [List.nil_append, span_cons]
  | cons a G ih =>
    rw [List.cons_append, span_cons, span_cons, span_cons, ih, ih, xor_right_comm]
    tauto

theorem xor_xor_self (a b : ℕ) : a ^^^ b ^^^ b = a := by
  rw [Nat.xor_assoc, Nat.xor_self, Nat.xor_zero]

/-- replacing the last vector by one that differs by an element of the span -/
theorem span_concat_congr {G : List ℕ} {v w x : ℕ} (h : Span G (v ^^^ w)) :
    Span (G ++ [v]) x ↔ Span (G ++ [w]) x := by
  rw [span_concat, span_concat]
  refine or_congr_right ⟨fun hx => ?_, fun hx => ?_⟩
  · have := span_xor hx h
    rwa [← Nat.xor_assoc, xor_xor_self] at this
  · have := span_xor hx h
    rwa [Nat.xor_comm v w, ← Nat.xor_assoc, xor_xor_self] at this

/-- a triangular system: each vector has its pivot bit set, and later vectors have it cleared -/
def Tri (pg : List (ℕ × ℕ)) : Prop :=
  (∀ a ∈ pg, a.2.testBit a.1 = true) ∧ pg.Pairwise fun a b => b.2.testBit a.1 = false

/-- one pass over the system -/
def reduceP (pg : List (ℕ × ℕ)) (v : ℕ) : ℕ :=
  pg.foldl (fun v a => if v.testBit a.1 then v ^^^ a.2 else v) v

theorem span_bit {G : List ℕ} {p : ℕ} (h : ∀ g ∈ G, g.testBit p = false) {x : ℕ} (hx : Span G x) :
    x.testBit p = false := by
  induction G generalizing x with
  | nil => rw [span_nil] at hx; subst hx; simp
  | cons g G ih =>
    rw [span_cons] at hx
    have ih' := fun {x} => ih (fun g hg => h g (List.mem_cons_of_mem _ hg)) (x := x)
    rcases hx with hx | hx
    · exact ih' hx
    · have := ih' hx
      rw [Nat.testBit_xor, h g List.mem_cons_self] at this
      simpa using this

theorem span_reduceP (pg : List (ℕ × ℕ)) (v : ℕ) :
    Span (pg.map Prod.snd) (v ^^^ reduceP pg v) := by
  induction pg generalizing v with
  | nil => rw [List.map_nil, span_nil, reduceP, List.foldl_nil, Nat.xor_self]
  | cons a pg ih =>
    rw [List.map_cons, span_cons]
    have := ih (if v.testBit a.1 then v ^^^ a.2 else v)
    rw [reduceP, List.foldl_cons]
    by_cases h : v.testBit a.1 = true
    · rw [if_pos h] at this ⊢
      right
      rw [xor_right_comm]
      exact this
    · rw [if_neg h] at this ⊢
      exact Or.inl this

theorem tri_cons {a : ℕ × ℕ} {pg : List (ℕ × ℕ)} (h : Tri (a :: pg)) :
    a.2.testBit a.1 = true ∧ (∀ b ∈ pg, b.2.testBit a.1 = false) ∧ Tri pg := by
  obtain ⟨h1, h2⟩ := h
  rw [List.pairwise_cons] at h2
  exact ⟨h1 a List.mem_cons_self, h2.1, fun b hb => h1 b (List.mem_cons_of_mem _ hb), h2.2⟩

theorem reduceP_clear {pg : List (ℕ × ℕ)} (h : Tri pg) (v : ℕ) :
    ∀ a ∈ pg, (reduceP pg v).testBit a.1 = false := by
  induction pg generalizing v with
  | nil => simp
  | cons b pg ih =>
    obtain ⟨h1, h2, h3⟩ := tri_cons h
    intro a ha
    rw [reduceP, List.foldl_cons]
    rcases List.mem_cons.1 ha with rfl | ha
    · have hs := span_bit (G := pg.map Prod.snd) (p := a.1)
        (by intro g hg; obtain ⟨b, hb, rfl⟩ := List.mem_map.1 hg; exact h2 b hb)
        (span_reduceP pg (if v.testBit a.1 then v ^^^ a.2 else v))
      rw [Nat.testBit_xor] at hs
      have hv : (if v.testBit a.1 then v ^^^ a.2 else v).testBit a.1 = false := by
        split_ifs with hb
        · rw [Nat.testBit_xor, hb, h1]; rfl
        · simpa using hb
      rw [hv] at hs
      simpa [reduceP] using hs
    · exact ih h3 _ a ha

theorem span_clear {pg : List (ℕ × ℕ)} (h : Tri pg) {x : ℕ} (hx : Span (pg.map Prod.snd) x)
    (hc : ∀ a ∈ pg, x.testBit a.1 = false) : x = 0 := by
  induction pg generalizing x with
  | nil => rw [List.map_nil, span_nil] at hx; exact hx
  | cons b pg ih =>
    obtain ⟨h1, h2, h3⟩ := tri_cons h
    rw [List.map_cons, span_cons] at hx
    rcases hx with hx | hx
    · exact ih h3 hx fun a ha => hc a (List.mem_cons_of_mem _ ha)
    · have := span_bit (p := b.1)
        (by intro g hg; obtain ⟨c, hc, rfl⟩ := List.mem_map.1 hg; exact h2 c hc) hx
      rw [Nat.testBit_xor, hc b List.mem_cons_self, h1] at this
      simp at this

theorem reduceP_eq_zero {pg : List (ℕ × ℕ)} (h : Tri pg) {v : ℕ} :
    reduceP pg v = 0 ↔ Span (pg.map Prod.snd) v := by
  have hs := span_reduceP pg v
  constructor
  · intro h0
    rwa [h0, Nat.xor_zero] at hs
  · intro hv
    apply span_clear h _ (reduceP_clear h v)
    have := span_xor hs hv
    rwa [xor_right_comm, Nat.xor_self, Nat.zero_xor] at this

theorem tri_concat {pg : List (ℕ × ℕ)} (h : Tri pg) {p v : ℕ} (hv : v.testBit p = true)
    (hc : ∀ a ∈ pg, v.testBit a.1 = false) : Tri (pg ++ [(p, v)]) := by
  refine ⟨?_, ?_⟩
  · intro a ha
    rcases List.mem_append.1 ha with ha | ha
    · exact h.1 a ha
    · rw [List.mem_singleton] at ha; subst ha; exact hv
  · rw [List.pairwise_append]
    refine ⟨h.2, List.pairwise_singleton _ _, ?_⟩
    intro a ha b hb
    rw [List.mem_singleton] at hb; subst hb
    exact hc a ha

/-- the vectors of a list are linearly independent: only the empty sublist has sum zero -/
def Indep (G : List ℕ) : Prop := ∀ l : List ℕ, l.Sublist G → l.foldr (· ^^^ ·) 0 = 0 → l = []

theorem tri_indep {pg : List (ℕ × ℕ)} (h : Tri pg) : Indep (pg.map Prod.snd) := by
  induction pg with
  | nil => intro l hl _; rwa [List.map_nil, List.sublist_nil] at hl
  | cons b pg ih =>
    obtain ⟨h1, h2, h3⟩ := tri_cons h
    intro l hl h0
    rw [List.map_cons, List.sublist_cons_iff] at hl
    rcases hl with hl | ⟨r, rfl, hl⟩
    · exact ih h3 l hl h0
    · exfalso
      have := span_bit (p := b.1) (G := pg.map Prod.snd)
        (by intro g hg; obtain ⟨c, hc, rfl⟩ := List.mem_map.1 hg; exact h2 c hc) ⟨r, hl, rfl⟩
      have hb := congrArg (fun n => n.testBit b.1) h0
      simp only [List.foldr_cons, Nat.testBit_xor, this, h1] at hb
      simp at hb

theorem tri_nodup {pg : List (ℕ × ℕ)} (h : Tri pg) : (pg.map Prod.fst).Nodup := by
  rw [List.nodup_iff_pairwise_ne, List.pairwise_map]
  refine List.Pairwise.imp_of_mem ?_ h.2
  intro a b ha hb hab he
  rw [he, h.1 b hb] at hab
  exact absurd hab (by simp)

/-- two vectors with all pivot bits cleared and a difference in the span are equal -/
theorem coset_unique {pg : List (ℕ × ℕ)} (h : Tri pg) {x y : ℕ}
    (hs : Span (pg.map Prod.snd) (x ^^^ y)) (hx : ∀ a ∈ pg, x.testBit a.1 = false)
    (hy : ∀ a ∈ pg, y.testBit a.1 = false) : x = y := by
  have := span_clear h hs (fun a ha => by rw [Nat.testBit_xor, hx a ha, hy a ha]; rfl)
  exact Nat.xor_eq_zero_iff.1 this

theorem reduceP_lt {pg : List (ℕ × ℕ)} {n : ℕ} (hg : ∀ a ∈ pg, a.2 < 2 ^ n) {v : ℕ}
    (hv : v < 2 ^ n) : reduceP pg v < 2 ^ n := by
  induction pg generalizing v with
  | nil => exact hv
  | cons a pg ih =>
    rw [reduceP, List.foldl_cons]
    apply ih (fun b hb => hg b (List.mem_cons_of_mem _ hb))
    split_ifs
    · exact Nat.xor_lt_two_pow hv (hg a List.mem_cons_self)
    · exact hv

end Eclib.Bits
