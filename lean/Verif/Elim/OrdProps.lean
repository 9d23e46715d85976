import Verif.Elim.Model

/-!
# The ordered lists of smat_elim.cc

`Holds l s`: the list `l` has the elements `s`.  `Stale l s S`: moreover the cell following the last
element was written and has a value of `S` (`ordlist::put(list&)` compares with that cell).
-/

namespace Eclib.Elim

/-- the elements of an `ordlist` -/
def Holds (l : OL) (s : List ℕ) : Prop :=
  s.Pairwise (· < ·) ∧ l.num = s.length ∧ ∃ rest, l.arr = s.map some ++ rest

/-- the cell after the last element holds a value of `S` -/
def Stale (l : OL) (s : List ℕ) (S : ℕ → Prop) : Prop :=
  ∃ y rest, S y ∧ l.arr = s.map some ++ some y :: rest

theorem rd_append_left {s : List ℕ} {rest : List (Option ℕ)} {i : ℕ} (h : i < s.length) :
    rd (s.map some ++ rest) i = some s[i] := by
  unfold rd
  rw [List.getElem?_append_left (by simpa using h)]
  simp [h]

theorem rd_append_right {A : List (Option ℕ)} {B : List (Option ℕ)} {i : ℕ} (h : A.length ≤ i) :
    rd (A ++ B) i = rd B (i - A.length) := by
  unfold rd
  rw [List.getElem?_append_right h]

theorem findLoop_gen (a : List (Option ℕ)) (X k : ℕ) : ∀ f ub lb, lb ≤ k → k ≤ ub → ub - lb < f →
    (∀ i, lb ≤ i → i ≤ ub → ∃ y, rd a i = some y ∧ (y < X ↔ i < k)) →
    findLoop a X f ub lb = some k := by
  intro f
  induction f with
  | zero => intro ub lb _ _ h; omega
  | succ f ih =>
    intro ub lb h1 h2 h3 h
    obtain ⟨y, hy, hy2⟩ := h lb le_rfl (by omega)
    rw [findLoop, hy]
    simp only []
    by_cases c : y < X
    · rw [if_pos c]
      have hlt := hy2.1 c
      obtain ⟨z, hz, hz2⟩ := h ((ub + lb) / 2) (by omega) (by omega)
      rw [hz]
      simp only []
      by_cases d : z < X
      · rw [if_pos d]
        have := hz2.1 d
        exact ih _ _ (by omega) h2 (by omega) (fun i hi hi2 => h i (by omega) hi2)
      · rw [if_neg d]
        have : ¬ (ub + lb) / 2 < k := fun q => d (hz2.2 q)
        exact ih _ _ h1 (by omega) (by omega) (fun i hi hi2 => h i hi (by omega))
    · rw [if_neg c]
      have : ¬ lb < k := fun q => c (hy2.2 q)
      congr 1
      omega

theorem find_gen (a : List (Option ℕ)) (X ub lb k : ℕ) (h1 : lb ≤ k) (h2 : k ≤ ub + 1) (h3 : ub < a.length)
    (h : ∀ i, (lb ≤ i ∨ i = ub) → i ≤ ub → ∃ y, rd a i = some y ∧ (y < X ↔ i < k)) :
    find a X ub lb = some k := by
  obtain ⟨y, hy, hy2⟩ := h ub (Or.inr rfl) le_rfl
  rw [find, hy]
  simp only []
  by_cases c : y < X
  · rw [if_pos c]
    have := hy2.1 c
    congr 1
    omega
  · rw [if_neg c]
    have : ¬ ub < k := fun q => c (hy2.2 q)
    exact findLoop_gen a X k _ ub lb h1 (by omega) (by omega) (fun i hi hi2 => h i (Or.inl hi) hi2)

/-- the search in a list whose elements below `X` are `u` -/
theorem OL.find_spec {l : OL} {u v : List ℕ} (hl : Holds l (u ++ v)) (hne : u ++ v ≠ []) {X lb : ℕ}
    (hu : ∀ x ∈ u, x < X) (hv : ∀ x ∈ v, X ≤ x) (hlb : lb ≤ u.length) : l.find X lb = some u.length := by
  obtain ⟨_, hn, rest, ha⟩ := hl
  have hpos : 0 < (u ++ v).length := List.length_pos_of_ne_nil hne
  rw [OL.find, if_neg (by omega)]
  have hlen : (u ++ v).length ≤ l.arr.length := by rw [ha]; simp
  refine find_gen _ _ _ _ _ hlb ?_ (by omega) ?_
  · simp only [List.length_append] at hn; omega
  · intro i _ hi
    have hi2 : i < (u ++ v).length := by omega
    refine ⟨(u ++ v)[i], by rw [ha]; exact rd_append_left hi2, ?_⟩
    by_cases c : i < u.length
    · rw [List.getElem_append_left c]
      exact ⟨fun _ => c, fun _ => hu _ (List.getElem_mem _)⟩
    · rw [List.getElem_append_right (by omega)]
      refine ⟨fun q => ?_, fun q => absurd q c⟩
      have hi3 : i - u.length < v.length := by simp at hi2; omega
      have := hv _ (List.getElem_mem hi3)
      omega

theorem memmove_append {A B C D : List (Option ℕ)} {dest src n : ℕ} (h1 : dest = A.length)
    (h2 : src = A.length + B.length) (h3 : n = C.length) :
    memmove (A ++ B ++ C ++ D) dest src n = some (A ++ C ++ (B ++ C ++ D).drop n) := by
  subst h1 h2 h3
  unfold memmove
  rw [if_pos (by simp only [List.length_append]; omega)]
  congr 1
  have e1 : (A ++ B ++ C ++ D).take A.length = A := by
    rw [List.append_assoc, List.append_assoc, List.take_left']
    rfl
  have e2 : ((A ++ B ++ C ++ D).drop (A.length + B.length)).take C.length = C := by
    rw [List.append_assoc, List.drop_left' (by simp), List.take_left' rfl]
  have e3 : (A ++ B ++ C ++ D).drop (A.length + C.length) = (B ++ C ++ D).drop C.length := by
    rw [← List.drop_drop, List.append_assoc, List.append_assoc, List.drop_left' rfl, List.append_assoc]
  rw [e1, e2, e3]

theorem pairwise_append_lt {u v : List ℕ} {X : ℕ} (h : (u ++ X :: v).Pairwise (· < ·)) :
    (∀ x ∈ u, x < X) ∧ (∀ x ∈ v, X < x) ∧ (u ++ v).Pairwise (· < ·) := by
  rw [List.pairwise_append] at h
  obtain ⟨h1, h2, h3⟩ := h
  rw [List.pairwise_cons] at h2
  exact ⟨fun x hx => h3 x hx X (by simp), h2.1, List.pairwise_append.2
    ⟨h1, h2.2, fun a ha b hb => h3 a ha b (by simp [hb])⟩⟩

/-- `remove(X)` -/
theorem OL.remove_spec {l : OL} {s : List ℕ} (hl : Holds l s) {X : ℕ} (hX : X ∈ s) :
    ∃ l' s', l.remove X = some l' ∧ Holds l' s' ∧ Stale l' s' (· ∈ s) ∧ l'.index = l.index ∧
      l'.arr.length = l.arr.length ∧ ∀ x, x ∈ s' ↔ x ∈ s ∧ x ≠ X := by
  obtain ⟨u, w, rfl⟩ := List.append_of_mem hX
  obtain ⟨g1, g2, g3⟩ := pairwise_append_lt hl.1
  have hf : l.find X 0 = some u.length := OL.find_spec hl (by simp) g1
    (fun x hx => by rcases List.mem_cons.1 hx with rfl | hx; exacts [le_rfl, (g2 x hx).le]) (by omega)
  obtain ⟨_, hn, rest, ha⟩ := hl
  have hr : rd l.arr u.length = some X := by
    rw [ha, rd_append_left (by simp)]
    simp
  rw [OL.remove, hf]
  simp only [hr, ne_eq, not_true_eq_false, if_false]
  have hlen : l.num - 1 - u.length = w.length := by simp at hn; omega
  have ha2 : l.arr = u.map some ++ [some X] ++ w.map some ++ rest := by rw [ha]; simp
  rw [hlen, ha2, memmove_append (by simp) (by simp) (by simp), Option.map_some]
  refine ⟨_, u ++ w, rfl, ⟨g3, by simp at hn ⊢; omega,
    ([some X] ++ w.map some ++ rest).drop w.length, by simp⟩, ?_, rfl, ?_, ?_⟩
  · obtain ⟨y, z, hz, hy⟩ : ∃ y z, ([some X] ++ w.map some ++ rest).drop w.length = some y :: z ∧ y ∈ X :: w := by
      have e : [some X] ++ w.map some ++ rest = (X :: w).map some ++ rest := by simp
      rw [e, List.drop_append_of_le_length (by simp), ← List.map_drop]
      have hd : (X :: w).drop w.length ≠ [] := by simp
      obtain ⟨y, z, hz⟩ := List.exists_cons_of_ne_nil hd
      refine ⟨y, z.map some ++ rest, by rw [hz]; simp, ?_⟩
      exact List.mem_of_mem_drop (by rw [hz]; simp)
    exact ⟨y, z, by simp only [List.mem_append]; exact Or.inr hy, by simp only [List.map_append]; rw [hz]⟩
  · simp only [List.length_append, List.length_map, List.length_drop, List.length_cons, List.length_nil]
    omega
  · intro x
    simp only [List.mem_append, List.mem_cons]
    constructor
    · rintro (h | h)
      · exact ⟨Or.inl h, (g1 x h).ne⟩
      · exact ⟨Or.inr (Or.inr h), (g2 x h).ne'⟩
    · rintro ⟨h | h | h, hne⟩
      · exact Or.inl h
      · exact absurd h hne
      · exact Or.inr h

/-- all cells hold values of `S` -/
def Cells (a : List (Option ℕ)) (S : ℕ → Prop) : Prop := ∀ c ∈ a, ∃ y, c = some y ∧ S y

theorem Cells.append {a b : List (Option ℕ)} {S : ℕ → Prop} (ha : Cells a S) (hb : Cells b S) : Cells (a ++ b) S := by
  intro c hc
  rcases List.mem_append.1 hc with h | h
  exacts [ha c h, hb c h]

theorem Cells.map {s : List ℕ} {S : ℕ → Prop} (h : ∀ x ∈ s, S x) : Cells (s.map some) S := by
  intro c hc
  obtain ⟨x, hx, rfl⟩ := List.mem_map.1 hc
  exact ⟨x, rfl, h x hx⟩

theorem Cells.drop {a : List (Option ℕ)} {S : ℕ → Prop} (ha : Cells a S) (n : ℕ) : Cells (a.drop n) S :=
  fun c hc => ha c (List.mem_of_mem_drop hc)

theorem removeLoop_spec {S : ℕ → Prop} (num : ℕ) (rest : List (Option ℕ)) : ∀ (L : List ℕ) (done rem : List ℕ)
    (mid : List (Option ℕ)) (X0 : ℕ), L.Pairwise (· < ·) → (∀ x ∈ L, x ∈ rem) → rem.Pairwise (· < ·) →
    (∀ x ∈ rem, X0 < x) → Cells (mid ++ [some X0]) S → (∀ x ∈ rem, S x) →
    num = done.length + (mid.length + 1) + rem.length →
    ∃ done' rem' mid' X0', removeLoop num L (done.map some ++ (mid ++ [some X0]) ++ rem.map some ++ rest)
        done.length (done.length + (mid.length + 1)) (done.length + mid.length) =
          some (done'.map some ++ (mid' ++ [some X0']) ++ rem'.map some ++ rest, done'.length,
            done'.length + (mid'.length + 1)) ∧
      Cells (mid' ++ [some X0']) S ∧ num = done'.length + (mid'.length + 1) + rem'.length ∧
      done' ++ rem' = done ++ rem.filter (fun x => x ∉ L) := by
  intro L
  induction L with
  | nil =>
    intro done rem mid X0 _ _ _ _ hc _ hn
    exact ⟨done, rem, mid, X0, rfl, hc, hn, by simp⟩
  | cons X L ih =>
    intro done rem mid X0 hL hmem hrem hX0 hc hS hn
    obtain ⟨g, w, rfl⟩ := List.append_of_mem (hmem X (by simp))
    obtain ⟨g1, g2, g3⟩ := pairwise_append_lt hrem
    rw [List.pairwise_cons] at hL
    have hfind : find (done.map some ++ (mid ++ [some X0]) ++ (g ++ X :: w).map some ++ rest) X (num - 1)
        (done.length + mid.length) = some (done.length + (mid.length + 1) + g.length) := by
      refine find_gen _ _ _ _ _ (by omega) ?_ ?_ ?_
      · rw [hn]; simp; omega
      · rw [hn]; simp; omega
      · intro i hi hi2
        by_cases c : i = done.length + mid.length
        · refine ⟨X0, ?_, ?_⟩
          · rw [c, List.append_assoc, List.append_assoc, rd_append_right (by simp), List.length_map,
              Nat.add_sub_cancel_left, List.append_assoc, rd_append_right (by simp), Nat.sub_self]
            rfl
          · exact ⟨fun _ => by omega, fun _ => hX0 X (by simp)⟩
        · have hi3 : done.length + (mid.length + 1) ≤ i := by
            rcases hi with h | h
            · omega
            · rw [h, hn]; simp; omega
          have hi4 : i - (done.length + (mid.length + 1)) < (g ++ X :: w).length := by omega
          refine ⟨(g ++ X :: w)[i - (done.length + (mid.length + 1))], ?_, ?_⟩
          · rw [List.append_assoc, rd_append_right (by simp; omega), List.length_append, List.length_map,
              List.length_append]
            exact rd_append_left hi4
          · by_cases d : i - (done.length + (mid.length + 1)) < g.length
            · rw [List.getElem_append_left d]
              exact ⟨fun _ => by omega, fun _ => g1 _ (List.getElem_mem _)⟩
            · rw [List.getElem_append_right (by omega)]
              refine ⟨fun q => ?_, fun q => by omega⟩
              exfalso
              have hm := List.getElem_mem (l := X :: w) (n := i - (done.length + (mid.length + 1)) - g.length)
                (by simp at hi4 ⊢; omega)
              rcases List.mem_cons.1 hm with h | h
              · omega
              · have := g2 _ h
                omega
    have hrd : rd (done.map some ++ (mid ++ [some X0]) ++ (g ++ X :: w).map some ++ rest)
        (done.length + (mid.length + 1) + g.length) = some X := by
      rw [List.append_assoc, rd_append_right (by simp), List.length_append, List.length_map,
        List.length_append]
      rw [show done.length + (mid.length + 1) + g.length - (done.length + (mid.length + [some X0].length)) =
        g.length by simp, rd_append_left (by simp)]
      simp
    have hmv : memmove (done.map some ++ (mid ++ [some X0]) ++ (g ++ X :: w).map some ++ rest) done.length
        (done.length + (mid.length + 1)) (done.length + (mid.length + 1) + g.length - (done.length + (mid.length + 1))) =
        some ((done ++ g).map some ++ ((mid ++ [some X0] ++ g.map some).drop g.length ++ [some X]) ++ w.map some ++ rest) := by
      have e : done.map some ++ (mid ++ [some X0]) ++ (g ++ X :: w).map some ++ rest =
          done.map some ++ (mid ++ [some X0]) ++ g.map some ++ ([some X] ++ w.map some ++ rest) := by simp
      rw [e, memmove_append (by simp) (by simp) (by simp)]
      congr 1
      rw [Nat.add_sub_cancel_left, List.drop_append_of_le_length (by simp; omega)]
      simp
    rw [removeLoop, hfind]
    simp only [hrd, ne_eq, not_true_eq_false, if_false, hmv]
    have hlen : ((mid ++ [some X0] ++ g.map some).drop g.length).length = mid.length + 1 := by simp; omega
    have hmax : max (done.length + (mid.length + 1)) (done.length + (mid.length + 1) + g.length) + 1 =
        (done ++ g).length + (((mid ++ [some X0] ++ g.map some).drop g.length).length + 1) := by
      rw [hlen, List.length_append]; omega
    have har : done.length + (done.length + (mid.length + 1) + g.length - (done.length + (mid.length + 1))) =
        (done ++ g).length := by rw [List.length_append]; omega
    have hind : done.length + (mid.length + 1) + g.length =
        (done ++ g).length + ((mid ++ [some X0] ++ g.map some).drop g.length).length := by
      rw [hlen, List.length_append]; omega
    rw [hmax, har, hind]
    obtain ⟨done', rem', mid', X0', h1, h2, h3, h4⟩ := ih (done ++ g) w
      ((mid ++ [some X0] ++ g.map some).drop g.length) X hL.2
      (fun x hx => by
        have h5 := hmem x (by simp [hx])
        have h6 := hL.1 x hx
        rcases List.mem_append.1 h5 with h | h
        · have := g1 x h; omega
        · rcases List.mem_cons.1 h with h | h
          · omega
          · exact h)
      (List.pairwise_append.1 g3).2.1 g2
      ((Cells.drop (hc.append (Cells.map fun x hx => hS x (by simp [hx]))) _).append
        (Cells.map (s := [X]) fun x hx => hS x (by simp at hx; simp [hx])))
      (fun x hx => hS x (by simp [hx]))
      (by rw [hlen, hn]; simp; omega)
    refine ⟨done', rem', mid', X0', h1, h2, h3, ?_⟩
    rw [h4, List.filter_append, List.append_assoc]
    congr 1
    have e1 : g.filter (fun x => x ∉ X :: L) = g := by
      rw [List.filter_eq_self]
      intro x hx
      have := g1 x hx
      simp only [List.mem_cons, not_or, decide_eq_true_eq]
      exact ⟨by omega, fun h => by have := hL.1 x h; omega⟩
    have e2 : (X :: w).filter (fun x => x ∉ X :: L) = w.filter (fun x => x ∉ L) := by
      rw [List.filter_cons_of_neg (by simp)]
      apply List.filter_congr
      intro x hx
      have := g2 x hx
      simp only [List.mem_cons, not_or, decide_eq_decide]
      exact ⟨fun h => h.2, fun h => ⟨by omega, h⟩⟩
    rw [e1, e2]

/-- `remove(L)` -/
theorem OL.removeList_spec {l : OL} {s : List ℕ} {S : ℕ → Prop} (hl : Holds l s) (hst : Stale l s S)
    (hs : ∀ x ∈ s, S x) {L : List ℕ} (hL : L.Pairwise (· < ·)) (hsub : ∀ x ∈ L, x ∈ s) :
    ∃ l' s', l.removeList L = some l' ∧ Holds l' s' ∧ Stale l' s' S ∧ (l.index = 0 → l'.index = 0) ∧
      l'.arr.length = l.arr.length ∧ ∀ x, x ∈ s' ↔ x ∈ s ∧ x ∉ L := by
  cases L with
  | nil => exact ⟨l, s, rfl, hl, hst, id, rfl, by simp⟩
  | cons X L =>
    obtain ⟨u, w, rfl⟩ := List.append_of_mem (hsub X (by simp))
    obtain ⟨g1, g2, g3⟩ := pairwise_append_lt hl.1
    rw [List.pairwise_cons] at hL
    have hf : l.find X 0 = some u.length := OL.find_spec hl (by simp) g1
      (fun x hx => by rcases List.mem_cons.1 hx with rfl | hx; exacts [le_rfl, (g2 x hx).le]) (by omega)
    obtain ⟨_, hn, rest, ha⟩ := hl
    have hr : rd l.arr u.length = some X := by
      rw [ha, rd_append_left (by simp)]
      simp
    have ha2 : l.arr = u.map some ++ ([] ++ [some X]) ++ w.map some ++ rest := by rw [ha]; simp
    obtain ⟨done', rem', mid', X0', h1, h2, h3, h4⟩ := removeLoop_spec (S := S) l.num rest L u w [] X hL.2
      (fun x hx => by
        have h5 := hsub x (by simp [hx])
        have h6 := hL.1 x hx
        rcases List.mem_append.1 h5 with h | h
        · have := g1 x h; omega
        · rcases List.mem_cons.1 h with h | h
          · omega
          · exact h)
      (List.pairwise_append.1 g3).2.1 g2 (Cells.map (s := [X]) fun x hx => hs x (by simp at hx; simp [hx]))
      (fun x hx => hs x (by simp [hx])) (by rw [hn]; simp; omega)
    rw [OL.removeList, hf]
    simp only [hr, ne_eq, not_true_eq_false, if_false]
    rw [← ha2] at h1
    simp only [List.length_nil, zero_add, Nat.add_zero] at h1
    rw [h1]
    simp only []
    have hlen : l.num - (done'.length + (mid'.length + 1)) = rem'.length := by omega
    rw [hlen, memmove_append (by simp) (by simp) (by simp), Option.map_some]
    have hmem : ∀ x, x ∈ done' ++ rem' ↔ x ∈ u ++ X :: w ∧ x ∉ X :: L := by
      intro x
      rw [h4]
      simp only [List.mem_append, List.mem_filter, List.mem_cons, not_or, decide_eq_true_eq]
      constructor
      · rintro (h | ⟨h, h'⟩)
        · have := g1 x h
          exact ⟨Or.inl h, by omega, fun q => by have := hL.1 x q; omega⟩
        · have := g2 x h
          exact ⟨Or.inr (Or.inr h), by omega, h'⟩
      · rintro ⟨h | h | h, h2, h3⟩
        · exact Or.inl h
        · exact absurd h h2
        · exact Or.inr ⟨h, h3⟩
    refine ⟨_, done' ++ rem', rfl, ⟨?_, by simp, (mid' ++ [some X0'] ++ rem'.map some ++ rest).drop rem'.length,
      by simp⟩, ?_, fun _ => rfl, ?_, hmem⟩
    · rw [h4]
      have := List.pairwise_append.1 g3
      exact List.pairwise_append.2 ⟨this.1, this.2.1.filter _,
        fun a ha b hb => this.2.2 a ha b (List.mem_of_mem_filter hb)⟩
    · have hcell : Cells ((mid' ++ [some X0'] ++ rem'.map some).drop rem'.length) S := by
        have h5 : ∀ x ∈ rem', S x := fun x hx => hs x ((hmem x).1 (by simp [hx])).1
        exact (h2.append (Cells.map h5)).drop _
      have hne : (mid' ++ [some X0'] ++ rem'.map some).drop rem'.length ≠ [] := by
        intro h
        have := congrArg List.length h
        simp at this
        omega
      obtain ⟨c, z, hz⟩ := List.exists_cons_of_ne_nil hne
      obtain ⟨y, rfl, hy⟩ := hcell c (by rw [hz]; simp)
      refine ⟨y, z ++ rest, hy, ?_⟩
      simp only []
      rw [List.drop_append_of_le_length (by simp; omega), hz]
      simp
    · have := congrArg List.length ha2
      simp only [List.length_append, List.length_map, List.length_drop, List.length_cons, List.length_nil] at this hn ⊢
      omega

theorem rdRange_spec (A : List (Option ℕ)) (rest : List (Option ℕ)) : ∀ (s : List ℕ) (i : ℕ), i = A.length →
    rdRange (A ++ s.map some ++ rest) i s.length = some s := by
  intro s
  induction s generalizing A with
  | nil => intro i _; rfl
  | cons x s ih =>
    intro i hi
    have h1 : rd (A ++ (x :: s).map some ++ rest) i = some x := by
      rw [List.append_assoc, rd_append_right (by omega), hi, Nat.sub_self]
      rfl
    have h2 := ih (A ++ [some x]) (i + 1) (by simp [hi])
    have e : A ++ (x :: s).map some ++ rest = A ++ [some x] ++ s.map some ++ rest := by simp
    rw [List.length_cons, rdRange, h1, e, h2]

theorem putLoop_spec {l : OL} {S : ℕ → Prop} {s : List ℕ} (hl : Holds l s)
    (hst : Stale l s S) (hs : ∀ x ∈ s, S x) (hne : s ≠ []) : ∀ (L : List ℕ) (pre rem out : List ℕ) (b : ℕ),
    s = pre ++ rem → L.Pairwise (· < ·) → (∀ x ∈ L, ¬ S x) → (∀ x ∈ pre, ∀ y ∈ L, x < y) →
    out.Pairwise (· < ·) → (∀ x ∈ out, x < b) → (∀ y ∈ L, b ≤ y) → (∀ y ∈ rem, b ≤ y) →
    ∃ pre' rem' out' b', putLoop l L pre.length pre.length out = some (pre'.length, out') ∧ s = pre' ++ rem' ∧
      out'.Pairwise (· < ·) ∧ (∀ x ∈ out', x < b') ∧ (∀ y ∈ rem', b' ≤ y) ∧
      out'.length + rem'.length = out.length + rem.length + L.length ∧
      ∀ x, (x ∈ out' ∨ x ∈ rem') ↔ (x ∈ out ∨ x ∈ rem ∨ x ∈ L) := by
  intro L
  induction L with
  | nil =>
    intro pre rem out b h1 _ _ _ h2 h3 _ h4
    exact ⟨pre, rem, out, b, rfl, h1, h2, h3, h4, by simp, by simp⟩
  | cons X L ih =>
    intro pre rem out b h1 hL hS hpre hout hb hbL hbr
    rw [List.pairwise_cons] at hL
    -- split the remaining elements at X
    obtain ⟨g, w, rfl, hg, hw⟩ : ∃ g w, rem = g ++ w ∧ (∀ x ∈ g, x < X) ∧ ∀ x ∈ w, X < x := by
      refine ⟨rem.takeWhile (· < X), rem.dropWhile (· < X), (List.takeWhile_append_dropWhile).symm,
        fun x hx => by
          have := List.all_takeWhile (p := fun x => decide (x < X)) (l := rem)
          simpa using List.all_eq_true.1 this x hx, fun x hx => ?_⟩
      have hmem : x ∈ s := by
        rw [h1]
        exact List.mem_append.2 (Or.inr ((List.dropWhile_sublist _).subset hx))
      have hsx := hs x hmem
      have hXn : x ≠ X := fun h => hS X (by simp) (h ▸ hsx)
      have hsort : (rem.dropWhile (· < X)).Pairwise (· < ·) := by
        have := hl.1
        rw [h1, List.pairwise_append] at this
        exact this.2.1.sublist (List.dropWhile_sublist _)
      cases hd : rem.dropWhile (· < X) with
      | nil => rw [hd] at hx; simp at hx
      | cons z zs =>
        have hz : ¬ z < X := by
          have := List.head_dropWhile_not (fun x => decide (x < X)) (l := rem) (by rw [hd]; simp)
          simp only [hd, List.head_cons, decide_eq_false_iff_not] at this
          exact this
        rw [hd] at hx hsort
        rw [List.pairwise_cons] at hsort
        rcases List.mem_cons.1 hx with rfl | hx
        · omega
        · have := hsort.1 x hx
          omega
    have hs2 : s = (pre ++ g) ++ w := by rw [h1, List.append_assoc]
    have hf : l.find X pre.length = some (pre ++ g).length := by
      refine OL.find_spec (by rw [← hs2]; exact hl) (by rw [← hs2]; exact hne) ?_ (fun x hx => (hw x hx).le) (by simp)
      intro x hx
      rcases List.mem_append.1 hx with h | h
      · exact hpre x h X (by simp)
      · exact hg x h
    obtain ⟨y, hy, hyX⟩ : ∃ y, rd l.arr (pre ++ g).length = some y ∧ y ≠ X := by
      obtain ⟨y0, rest0, hy0, ha0⟩ := hst
      rw [ha0, hs2]
      cases w with
      | nil =>
        refine ⟨y0, ?_, fun h => hS X (by simp) (h ▸ hy0)⟩
        rw [List.append_nil, rd_append_right (by simp), List.length_map, Nat.sub_self]
        rfl
      | cons z zs =>
        refine ⟨z, ?_, (hw z (by simp)).ne'⟩
        rw [rd_append_left (by simp)]
        congr 1
        rw [List.getElem_append_right (by simp)]
        simp
    have hrr : rdRange l.arr pre.length ((pre ++ g).length - pre.length) = some g := by
      obtain ⟨_, _, rest1, ha1⟩ := hl
      have e : l.arr = pre.map some ++ g.map some ++ (w.map some ++ rest1) := by rw [ha1, hs2]; simp
      rw [e, List.length_append, Nat.add_sub_cancel_left]
      exact rdRange_spec _ _ g _ (by simp)
    rw [putLoop, hf]
    simp only [hy, ne_eq, hyX, not_false_eq_true, if_true, hrr]
    have hmax : max pre.length (pre ++ g).length = (pre ++ g).length := by simp
    rw [hmax]
    have hgs : g.Pairwise (· < ·) := by
      have := hl.1
      rw [hs2, List.pairwise_append, List.pairwise_append] at this
      exact this.1.2.1
    obtain ⟨pre', rem', out', b', k1, k2, k3, k4, k5, k6, k7⟩ := ih (pre ++ g) w (out ++ g ++ [X]) (X + 1) hs2 hL.2
      (fun x hx => hS x (by simp [hx]))
      (fun x hx y hy => by
        have hXy := hL.1 y hy
        rcases List.mem_append.1 hx with h | h
        · exact hpre x h y (by simp [hy])
        · have := hg x h; omega)
      (by
        rw [List.pairwise_append, List.pairwise_append]
        refine ⟨⟨hout, hgs, fun x hx y hy => ?_⟩, by simp, fun x hx y hy => ?_⟩
        · have := hb x hx
          have := hbr y (by simp [hy])
          omega
        · rw [List.mem_singleton] at hy
          subst hy
          rcases List.mem_append.1 hx with h | h
          · have := hb x h
            have := hbL y (by simp)
            omega
          · exact hg x h)
      (fun x hx => by
        simp only [List.mem_append, List.mem_singleton] at hx
        rcases hx with (h | h) | h
        · have := hb x h
          have := hbL X (by simp)
          omega
        · have := hg x h; omega
        · omega)
      (fun y hy => hL.1 y hy) (fun y hy => hw y hy)
    refine ⟨pre', rem', out', b', k1, k2, k3, k4, k5, ?_, fun x => ?_⟩
    · rw [k6]; simp; omega
    · rw [k7]
      simp only [List.mem_append, List.mem_cons, List.not_mem_nil, or_false]
      tauto

theorem wr_append {A : List (Option ℕ)} {c : Option ℕ} {B : List (Option ℕ)} {i x : ℕ} (h : i = A.length) :
    wr (A ++ c :: B) i x = some (A ++ some x :: B) := by
  subst h
  unfold wr
  rw [if_pos (by simp)]
  congr 1
  rw [List.set_append_right _ _ le_rfl, Nat.sub_self]
  rfl

/-- there is room for one more element after growing -/
theorem OL.room {ls : ℕ} {l : OL} {s : List ℕ} (hl : Holds l s) (hls : 0 < ls ∨ 0 < l.arr.length) :
    ∃ c rest, (if l.arr.length ≤ l.num then l.grow ls else l).arr = s.map some ++ c :: rest := by
  obtain ⟨_, hn, rest, ha⟩ := hl
  split_ifs with h
  · have hr : rest = [] := by
      have := congrArg List.length ha
      simp at this
      exact List.eq_nil_of_length_eq_zero (by omega)
    subst hr
    rw [OL.grow, ha]
    have hpos : 0 < (if (s.map some ++ ([] : List (Option ℕ))).length = 0 then ls else
        (s.map some ++ ([] : List (Option ℕ))).length / 2 + 1) := by
      split_ifs with c
      · rcases hls with h | h
        · exact h
        · rw [ha] at h; omega
      · omega
    obtain ⟨k, hk⟩ := Nat.exists_eq_add_of_lt hpos
    rw [hk, show 0 + k + 1 = k + 1 by omega, List.replicate_succ]
    exact ⟨none, List.replicate k none, by simp⟩
  · cases rest with
    | nil =>
      have := congrArg List.length ha
      simp at this
      omega
    | cons c rest => exact ⟨c, rest, ha⟩

theorem pairwise_snoc {s : List ℕ} (h : s.Pairwise (· < ·)) {X : ℕ} (hX : ∀ x ∈ s, x < X) :
    (s ++ [X]).Pairwise (· < ·) :=
  List.pairwise_append.2 ⟨h, by simp, fun a ha b hb => by rw [List.mem_singleton] at hb; exact hb ▸ hX a ha⟩

/-- `list::put(X)` -/
theorem OL.append_spec {ls : ℕ} {l : OL} {s : List ℕ} (hl : Holds l s) (hls : 0 < ls ∨ 0 < l.arr.length) {X : ℕ}
    (hX : ∀ x ∈ s, x < X) : ∃ l', l.append ls X = some l' ∧ Holds l' (s ++ [X]) ∧ l'.index = l.index ∧
      0 < l'.arr.length := by
  obtain ⟨c, rest, ha⟩ := OL.room hl hls
  have hidx : (if l.arr.length ≤ l.num then l.grow ls else l).index = l.index := by split_ifs <;> rfl
  have hnum : (if l.arr.length ≤ l.num then l.grow ls else l).num = l.num := by split_ifs <;> rfl
  unfold OL.append
  simp only []
  rw [hnum, ha, wr_append (by simp [hl.2.1])]
  refine ⟨_, rfl, ⟨pairwise_snoc hl.1 hX, by simp [hl.2.1], rest, by simp⟩, hidx, by simp⟩

/-- `ordlist::put(X)` for an element larger than all others -/
theorem OL.put_spec {ls : ℕ} {l : OL} {s : List ℕ} (hl : Holds l s) (hls : 0 < ls ∨ 0 < l.arr.length) {X : ℕ}
    (hX : ∀ x ∈ s, x < X) : ∃ l', l.put ls X = some l' ∧ Holds l' (s ++ [X]) ∧ l'.index = l.index ∧
      0 < l'.arr.length := by
  obtain ⟨c, rest, ha⟩ := OL.room hl hls
  have hle : l.num ≤ l.arr.length := by
    obtain ⟨_, hn, rest1, ha1⟩ := hl
    rw [ha1, hn]; simp
  have hcond : (if l.num = l.arr.length then l.grow ls else l) = (if l.arr.length ≤ l.num then l.grow ls else l) := by
    by_cases h : l.num = l.arr.length
    · rw [if_pos h, if_pos (by omega)]
    · rw [if_neg h, if_neg (by omega)]
  obtain ⟨l1, hl1⟩ : ∃ l1, l1 = (if l.arr.length ≤ l.num then l.grow ls else l) := ⟨_, rfl⟩
  have hidx : l1.index = l.index := by rw [hl1]; split_ifs <;> rfl
  have hnum : l1.num = l.num := by rw [hl1]; split_ifs <;> rfl
  rw [← hl1] at ha hcond
  have hh : Holds l1 s := ⟨hl.1, by rw [hnum]; exact hl.2.1, _, ha⟩
  unfold OL.put
  simp only []
  rw [hcond]
  by_cases c0 : l1.num = 0
  · rw [if_pos c0]
    have hs0 : s = [] := List.eq_nil_of_length_eq_zero (by rw [← hh.2.1]; exact c0)
    subst hs0
    rw [ha, wr_append (by simp)]
    exact ⟨_, rfl, ⟨by simp, by simp [c0], rest, by simp⟩, hidx, by simp⟩
  · rw [if_neg c0]
    have hf : l1.find X 0 = some s.length := by
      refine OL.find_spec (v := []) (by rw [List.append_nil]; exact hh) ?_ hX (by simp) (by omega)
      rw [List.append_nil]
      intro h
      rw [h] at hh
      exact c0 hh.2.1
    rw [hf]
    simp only []
    have hlt := hh.2.1
    rw [if_pos (Or.inl hlt.symm)]
    have hmv : memmove l1.arr l1.num (l1.num - 1) (l1.num - s.length) = some l1.arr := by
      have hlen : l1.num < l1.arr.length := by rw [ha, hlt]; simp
      rw [show l1.num - s.length = 0 by omega]
      unfold memmove
      rw [if_pos (by omega)]
      simp
    rw [hmv, Option.bind_some, ha, wr_append (by simp)]
    exact ⟨_, rfl, ⟨pairwise_snoc hh.1 hX, by simp [hlt], rest, by simp⟩, hidx, by simp⟩

theorem OL.putAll_spec {ls : ℕ} : ∀ (L : List ℕ) (l : OL) (s : List ℕ), Holds l s → (0 < ls ∨ 0 < l.arr.length) →
    L.Pairwise (· < ·) → (∀ x ∈ s, ∀ y ∈ L, x < y) →
    ∃ l', L.foldlM (fun l X => OL.put ls l X) l = some l' ∧ Holds l' (s ++ L) ∧ l'.index = l.index := by
  intro L
  induction L with
  | nil => intro l s hl _ _ _; exact ⟨l, rfl, by simpa using hl, rfl⟩
  | cons X L ih =>
    intro l s hl hls hL hsL
    rw [List.pairwise_cons] at hL
    obtain ⟨l1, h1, h2, h3, h4⟩ := OL.put_spec hl hls (X := X) (fun x hx => hsL x hx X (by simp))
    obtain ⟨l2, h5, h6, h7⟩ := ih l1 (s ++ [X]) h2 (Or.inr h4) hL.2 (fun x hx y hy => by
      rcases List.mem_append.1 hx with h | h
      · exact hsL x h y (by simp [hy])
      · rw [List.mem_singleton] at h
        exact h ▸ hL.1 y hy)
    refine ⟨l2, ?_, by simpa using h6, by rw [h7, h3]⟩
    rw [List.foldlM_cons, h1]
    exact h5

/-- `ordlist::put(L)` for an ordered list none of whose elements is in the list or in the cell after its
end -/
theorem OL.putList_spec {ls : ℕ} (hls : 0 < ls) {l : OL} {s : List ℕ} {S : ℕ → Prop} (hl : Holds l s)
    (hst : Stale l s S) (hs : ∀ x ∈ s, S x) {L : List ℕ} (hL : L.Pairwise (· < ·)) (hd : ∀ x ∈ L, ¬ S x) :
    ∃ l' s', l.putList ls L = some l' ∧ Holds l' s' ∧ (l.index = 0 → l'.index = 0) ∧
      ∀ x, x ∈ s' ↔ x ∈ s ∨ x ∈ L := by
  unfold OL.putList
  by_cases h0 : L = []
  · rw [if_pos h0]
    exact ⟨l, s, rfl, hl, id, by simp [h0]⟩
  rw [if_neg h0]
  by_cases h1 : l.num = 0
  · rw [if_pos h1]
    have hs0 : s = [] := List.eq_nil_of_length_eq_zero (by rw [← hl.2.1]; exact h1)
    subst hs0
    obtain ⟨l', h2, h3, h4⟩ := OL.putAll_spec (ls := ls) L { l with index := 0 } [] hl (Or.inl hls) hL (by simp)
    rw [h2, Option.map_some]
    refine ⟨_, L, rfl, ?_, fun _ => h4, by simp⟩
    rw [List.nil_append] at h3
    exact ⟨h3.1, rfl, h3.2.2⟩
  · rw [if_neg h1]
    have hne : s ≠ [] := fun h => h1 (by rw [hl.2.1, h]; rfl)
    obtain ⟨pre', rem', out', b', k1, k2, k3, k4, k5, k6, k7⟩ := putLoop_spec hl hst hs hne L [] s [] 0 rfl hL hd
      (by simp) (by simp) (by simp) (by simp) (by simp)
    rw [List.length_nil] at k1
    rw [k1]
    simp only []
    have hrr : rdRange l.arr pre'.length (l.num - pre'.length) = some rem' := by
      obtain ⟨_, hn, rest1, ha1⟩ := hl
      have e : l.arr = pre'.map some ++ rem'.map some ++ rest1 := by rw [ha1, k2]; simp
      have : l.num - pre'.length = rem'.length := by rw [hn, k2]; simp
      rw [this, e]
      exact rdRange_spec _ _ rem' _ (by simp)
    rw [hrr]
    simp only []
    have hlen : s.length ≤ l.arr.length := by
      obtain ⟨_, _, rest1, ha1⟩ := hl
      rw [ha1]; simp
    rw [if_pos (by simp only [List.length_append]; simp at k6; omega)]
    refine ⟨_, out' ++ rem', rfl, ⟨?_, rfl, _, rfl⟩, fun _ => rfl, fun x => ?_⟩
    · refine List.pairwise_append.2 ⟨k3, ?_, fun a ha b hb => ?_⟩
      · have := hl.1
        rw [k2, List.pairwise_append] at this
        exact this.2.1
      · have := k4 a ha
        have := k5 b hb
        omega
    · rw [List.mem_append, k7]
      simp

theorem OL.new_holds (m : ℕ) : Holds (OL.new m) [] := ⟨by simp, rfl, List.replicate m none, by simp [OL.new]⟩

/-- the first element -/
theorem OL.next_spec {l : OL} {x : ℕ} {s : List ℕ} (hl : Holds l (x :: s)) (hi : l.index = 0) :
    l.next = some (x, { l with index := 1 }) := by
  obtain ⟨_, hn, rest, ha⟩ := hl
  unfold OL.next
  rw [hi, if_pos (by rw [hn]; simp), ha]
  rfl

theorem OL.read_spec {l : OL} {s : List ℕ} (hl : Holds l s) : rdRange l.arr 0 l.num = some s := by
  obtain ⟨_, hn, rest, ha⟩ := hl
  rw [ha, hn]
  exact rdRange_spec [] rest s 0 rfl

end Eclib.Elim
