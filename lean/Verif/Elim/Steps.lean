import Verif.Elim.Pivot

/-!
# Initialization and steps 0 to 4
-/

namespace Eclib.Elim

set_option linter.unusedSectionVars false

open Svec (T smod)

variable {q : ℕ} [hq : Fact q.Prime]

theorem keys_nodup {t : T} {nco : ℕ} {l : Row} (h : RowOk t q nco l) : (keys l).Nodup := h.sorted.imp (fun h => h.ne)

/-! ### `init` -/

theorem initRow_spec (r : ℕ) : ∀ (l : Row) (cols : List OL), (keys l).Nodup → (∀ c ∈ keys l, 1 ≤ c ∧ c ≤ cols.length) →
    (∀ c ol, cols[c]? = some ol → c + 1 ∈ keys l → ∃ S, Holds ol S ∧ ∀ x ∈ S, x < r) →
    ∃ cols', initRow r cols l = some cols' ∧ cols'.length = cols.length ∧
      ∀ c ol S, cols[c]? = some ol → Holds ol S → ∃ ol', cols'[c]? = some ol' ∧ ol'.index = ol.index ∧
        Holds ol' (if c + 1 ∈ keys l then S ++ [r] else S) := by
  intro l
  induction l with
  | nil =>
    intro cols _ _ _
    exact ⟨cols, rfl, rfl, fun c ol S h1 h2 => ⟨ol, h1, rfl, by simpa using h2⟩⟩
  | cons e l ih =>
    intro cols hnd hr hS
    rw [keys_cons, List.nodup_cons] at hnd
    obtain ⟨he1, he2⟩ := hr e.1 (by simp)
    have hlt : e.1 - 1 < cols.length := by omega
    have hget := List.getElem?_eq_getElem hlt
    obtain ⟨S, g1, g2⟩ := hS (e.1 - 1) _ hget (by simp; omega)
    obtain ⟨ol', k1, k2, k3, _⟩ := OL.append_spec (ls := 10) g1 (Or.inl (by omega)) g2
    obtain ⟨cols', m1, m2, m3⟩ := ih (cols.set (e.1 - 1) ol') hnd.2 (fun c hc => by
        have := hr c (by simp [hc]); simpa using this) (fun c ol hc hk => by
        have hne : e.1 - 1 ≠ c := by
          rintro rfl
          rw [show e.1 - 1 + 1 = e.1 by omega] at hk
          exact hnd.1 hk
        rw [List.getElem?_set_ne hne] at hc
        exact hS c ol hc (by simp [hk]))
    refine ⟨cols', ?_, by simpa using m2, fun c ol S0 h1 h2 => ?_⟩
    · unfold initRow at m1 ⊢
      rw [List.foldlM_cons, if_neg (by omega), hget]
      simp only [k1, Option.map_some]
      exact m1
    · by_cases hce : c = e.1 - 1
      · subst hce
        rw [hget] at h1
        simp only [Option.some.injEq] at h1
        subst h1
        have hSS : S = S0 := by
          obtain ⟨_, n1, r1, a1⟩ := g1
          obtain ⟨_, n2, r2, a2⟩ := h2
          have hlen : S.length = S0.length := by omega
          rw [a1] at a2
          exact List.map_injective_iff.2 (Option.some_injective _) (List.append_inj_left a2 (by simp [hlen]))
        obtain ⟨ol2, p1, p2, p3⟩ := m3 (e.1 - 1) ol' (S ++ [r]) (List.getElem?_set_self hlt) k2
        refine ⟨ol2, p1, p2.trans k3, ?_⟩
        have hn : e.1 - 1 + 1 ∉ keys l := by rw [show e.1 - 1 + 1 = e.1 by omega]; exact hnd.1
        rw [if_neg hn] at p3
        rw [if_pos (by simp; omega), ← hSS]
        exact p3
      · obtain ⟨ol2, p1, p2, p3⟩ := m3 c ol S0 (by rw [List.getElem?_set_ne (Ne.symm hce)]; exact h1) h2
        refine ⟨ol2, p1, p2, ?_⟩
        have : (c + 1 ∈ keys (e :: l)) ↔ c + 1 ∈ keys l := by
          simp only [keys_cons, List.mem_cons]
          constructor
          · rintro (h | h)
            · omega
            · exact h
          · exact Or.inr
        simp only [this]
        exact p3

theorem initRows_spec {t : T} {nco : ℕ} : ∀ (rows : List Row) (k : ℕ) (cols : List OL), (∀ l ∈ rows, RowOk t q nco l) →
    cols.length = nco → (∀ c < nco, ∃ ol S, cols[c]? = some ol ∧ ol.index = 0 ∧ Holds ol S ∧ ∀ x ∈ S, x < k) →
    ∃ cols', (rows.zipIdx k).foldlM (fun cols (e : Row × ℕ) => initRow e.2 cols e.1) cols = some cols' ∧ cols'.length = nco ∧
      ∀ c ol S, cols[c]? = some ol → Holds ol S → ∃ ol' S', cols'[c]? = some ol' ∧ ol'.index = ol.index ∧ Holds ol' S' ∧
        ∀ x, x ∈ S' ↔ x ∈ S ∨ (k ≤ x ∧ c + 1 ∈ keys (rowOf rows (x - k))) := by
  intro rows
  induction rows with
  | nil =>
    intro k cols _ h1 _
    refine ⟨cols, rfl, h1, fun c ol S h2 h3 => ⟨ol, S, h2, rfl, h3, fun x => ?_⟩⟩
    simp [rowOf]
  | cons l rows ih =>
    intro k cols hok hlen hcols
    obtain ⟨cols1, a1, a2, a3⟩ := initRow_spec k l cols (keys_nodup (hok l (by simp)))
      (fun c hc => by rw [hlen]; exact (hok l (by simp)).range c hc)
      (fun c ol hc _ => by
        have hcn : c < nco := by rw [← hlen]; exact (List.getElem?_eq_some_iff.1 hc).1
        obtain ⟨ol', S, g1, g2, g3, g4⟩ := hcols c hcn
        rw [hc] at g1
        simp only [Option.some.injEq] at g1
        subst g1
        exact ⟨S, g3, g4⟩)
    obtain ⟨cols2, b1, b2, b3⟩ := ih (k + 1) cols1 (fun l hl => hok l (by simp [hl])) (a2.trans hlen) (fun c hc => by
      obtain ⟨ol, S, g1, g2, g3, g4⟩ := hcols c hc
      obtain ⟨ol', k1, k2, k3⟩ := a3 c ol S g1 g3
      refine ⟨ol', _, k1, k2.trans g2, k3, fun x hx => ?_⟩
      split_ifs at hx
      · rcases List.mem_append.1 hx with h | h
        · have := g4 x h; omega
        · simp at h; omega
      · have := g4 x hx; omega)
    refine ⟨cols2, ?_, b2, fun c ol S h1 h2 => ?_⟩
    · rw [List.zipIdx_cons, List.foldlM_cons, a1]
      exact b1
    · obtain ⟨ol1, k1, k2, k3⟩ := a3 c ol S h1 h2
      obtain ⟨ol2, S2, m1, m2, m3, m4⟩ := b3 c ol1 _ k1 k3
      refine ⟨ol2, S2, m1, m2.trans k2, m3, fun x => ?_⟩
      rw [m4]
      have hsplit : (k ≤ x ∧ c + 1 ∈ keys (rowOf (l :: rows) (x - k))) ↔
          (x = k ∧ c + 1 ∈ keys l) ∨ (k + 1 ≤ x ∧ c + 1 ∈ keys (rowOf rows (x - (k + 1)))) := by
        by_cases hx : x = k
        · subst hx
          simp [rowOf]
        · by_cases hx2 : k + 1 ≤ x
          · have e : x - k = (x - (k + 1)) + 1 := by omega
            have : rowOf (l :: rows) (x - k) = rowOf rows (x - (k + 1)) := by
              rw [e]; simp [rowOf]
            rw [this]
            simp [hx, hx2, show k ≤ x by omega]
          · simp [hx, hx2, show ¬ k ≤ x by omega]
      rw [hsplit]
      split_ifs with hk
      · simp only [List.mem_append, List.mem_singleton, hk, and_true]
        tauto
      · simp only [hk, and_false, false_or]

/-- the kernel of a list of rows -/
def InKer (q : ℕ) (rows : List Row) (x : ℕ → ZMod q) : Prop := ∀ l ∈ rows, dot q l x = 0

theorem ker_iff {rows : List Row} {x : ℕ → ZMod q} : (∀ r, dot q (rowOf rows r) x = 0) ↔ InKer q rows x := by
  constructor
  · intro h l hl
    obtain ⟨i, hi, rfl⟩ := List.getElem_of_mem hl
    have := h i
    rw [rowOf, List.getElem?_eq_getElem hi] at this
    exact this
  · intro h r
    by_cases hr : r < rows.length
    · exact h _ (by rw [rowOf, List.getElem?_eq_getElem hr]; exact List.getElem_mem hr)
    · rw [rowOf, List.getElem?_eq_none (by omega)]
      rfl

theorem at_replicate (n i : ℕ) : at' (List.replicate n none) i = none := by
  unfold at'
  rw [List.getElem?_replicate]
  split_ifs <;> rfl

theorem rowOk_rowOf {t : T} {nco : ℕ} {rows : List Row} (hok : ∀ l ∈ rows, RowOk t q nco l) (r : ℕ) :
    RowOk t q nco (rowOf rows r) := by
  unfold rowOf
  cases h : rows[r]? with
  | none => exact ⟨by simp, by simp, by simp, by simp⟩
  | some l => exact hok l (List.mem_of_getElem? h)

theorem init_spec {t : T} {nco : ℕ} {rows : List Row} (hok : ∀ l ∈ rows, RowOk t q nco l) :
    ∃ s, init nco rows = some s ∧ Inv t q (InKer q rows) none s ∧ s.elimRow = [] ∧ s.nco = nco ∧ s.rows = rows ∧
      ∀ r, at' s.position r = none := by
  obtain ⟨cols, h1, h2, h3⟩ := initRows_spec rows 0 (List.replicate nco (OL.new 10)) hok (by simp) (fun c hc =>
    ⟨OL.new 10, [], by rw [List.getElem?_replicate, if_pos hc], rfl, OL.new_holds 10, by simp⟩)
  refine ⟨_, by unfold init; rw [h1, Option.map_some], ⟨?_, ?_, ?_, ?_⟩, rfl, rfl, rfl, fun r => at_replicate _ r⟩
  · refine ⟨by simp, by simp, rowOk_rowOf hok, fun x => ker_iff, by simp, by simp, ?_, by simp, by simp⟩
    intro c r h
    rw [at_replicate] at h
    cases h
  · refine ⟨h2, fun c hc => ?_⟩
    obtain ⟨ol, S, g1, _, g3, g4⟩ := h3 c (OL.new 10) [] (by rw [List.getElem?_replicate, if_pos hc]) (OL.new_holds 10)
    refine ⟨ol, S, g1, g3, fun r => ?_⟩
    rw [g4]
    simp
  · intro r _
    exact Or.inl (at_replicate _ r)
  · intro c ol _ h
    have hc : c < nco := by
      have := (List.getElem?_eq_some_iff.1 h).1
      dsimp at this
      omega
    obtain ⟨ol', S, g1, g2, _, _⟩ := h3 c (OL.new 10) [] (by rw [List.getElem?_replicate, if_pos hc]) (OL.new_holds 10)
    dsimp at h
    rw [g1] at h
    simp only [Option.some.injEq] at h
    subst h
    exact Or.inl g2

/-! ### loops over lists -/

/-- the loops over a list end: each element either shortens the list or adds a pivot -/
theorem listLoop_spec {one : St → ℕ → List ℕ → Option (St × List ℕ)} (P : St → List ℕ → Prop) {m K : ℕ}
    (hstep : ∀ s x l, P s (x :: l) → ∃ s' l', one s x l = some (s', l') ∧ P s' l' ∧
      ((s'.elimRow.length = s.elimRow.length ∧ l'.length ≤ l.length) ∨
        (s'.elimRow.length = s.elimRow.length + 1 ∧ l'.length ≤ l.length + K)))
    (hle : ∀ s l, P s l → s.elimRow.length ≤ m) :
    ∀ fuel s l, P s l → (m - s.elimRow.length) * (K + 1) + l.length ≤ fuel → ∃ s', listLoop one fuel s l = some s' ∧ P s' [] := by
  intro fuel
  induction fuel with
  | zero =>
    intro s l h1 h2
    cases l with
    | nil => exact ⟨s, rfl, h1⟩
    | cons x l => simp at h2
  | succ f ih =>
    intro s l h1 h2
    cases l with
    | nil => exact ⟨s, rfl, h1⟩
    | cons x l =>
      obtain ⟨s', l', k1, k2, k3⟩ := hstep s x l h1
      rw [listLoop, k1]
      simp only []
      apply ih s' l' k2
      have hm := hle s' l' k2
      simp only [List.length_cons] at h2
      rcases k3 with ⟨k3, k4⟩ | ⟨k3, k4⟩
      · rw [k3]; omega
      · have e : m - s.elimRow.length = (m - s'.elimRow.length) + 1 := by omega
        rw [e, add_mul] at h2
        omega

theorem Same.trans {s s' s'' : St} (h : Same s s') (h' : Same s' s'') : Same s s'' := ⟨h'.1.trans h.1, h'.2.trans h.2⟩

theorem Same.refl (s : St) : Same s s := ⟨rfl, rfl⟩

/-- a list without repetitions of numbers less than `m` -/
theorem length_le_of_nodup {l : List ℕ} {m : ℕ} (h : l.Nodup) (h1 : ∀ x ∈ l, x < m) : l.length ≤ m := by
  have h2 : l.toFinset ⊆ Finset.range m := by
    intro d hd
    rw [List.mem_toFinset] at hd
    exact Finset.mem_range.2 (h1 d hd)
  have h3 := Finset.card_le_card h2
  rw [List.toFinset_card_of_nodup h] at h3
  simpa using h3

theorem RowOk.length_le {t : T} {nco : ℕ} {l : Row} (h : RowOk t q nco l) : l.length ≤ nco := by
  have h2 : (keys l).toFinset ⊆ Finset.Icc 1 nco := by
    intro d hd
    rw [List.mem_toFinset] at hd
    exact Finset.mem_Icc.2 (h.range d hd)
  have h3 := Finset.card_le_card h2
  rw [List.toFinset_card_of_nodup (keys_nodup h)] at h3
  simpa [keys] using h3

/-! ### step 0 -/

/-- a row without the entry in column `c` -/
def del (c : ℕ) (l : Row) : Row := l.filter fun e => e.1 ≠ c

theorem keys_del (c : ℕ) (l : Row) (d : ℕ) : d ∈ keys (del c l) ↔ d ∈ keys l ∧ d ≠ c := by
  unfold keys del
  simp only [List.mem_map, List.mem_filter, decide_eq_true_eq]
  constructor
  · rintro ⟨e, ⟨h1, h2⟩, rfl⟩
    exact ⟨⟨e, h1, rfl⟩, h2⟩
  · rintro ⟨⟨e, h1, rfl⟩, h2⟩
    exact ⟨e, ⟨h1, h2⟩, rfl⟩

theorem del_ok {t : T} {nco : ℕ} {l : Row} (h : RowOk t q nco l) (c : ℕ) : RowOk t q nco (del c l) := by
  refine ⟨?_, fun d hd => h.range d ((keys_del c l d).1 hd).1, fun e he => h.nz e (List.mem_of_mem_filter he),
    fun e he => h.bd e (List.mem_of_mem_filter he)⟩
  exact h.sorted.sublist ((List.filter_sublist (l := l)).map _)

theorem del_self {c : ℕ} {l : Row} (h : c ∉ keys l) : del c l = l := by
  unfold del
  rw [List.filter_eq_self]
  intro e he
  simp only [decide_eq_true_eq]
  rintro rfl
  exact h (List.mem_map_of_mem he)

theorem del_erase {t : T} {nco : ℕ} {l : Row} (h : RowOk t q nco l) {c k : ℕ} {v : ℤ} (hk : l[k]? = some (c, v)) :
    l.eraseIdx k = del c l ∧ (del c l).length + 1 = l.length := by
  obtain ⟨hlt, hget⟩ := List.getElem?_eq_some_iff.1 hk
  have hl : l = l.take k ++ (c, v) :: l.drop (k + 1) := by
    conv_lhs => rw [← List.take_append_drop k l]
    rw [List.drop_eq_getElem_cons hlt, hget]
  have hs : (keys (l.take k) ++ c :: keys (l.drop (k + 1))).Pairwise (· < ·) := by
    have := h.sorted
    rw [hl] at this
    simpa [keys] using this
  obtain ⟨g1, g2, _⟩ := pairwise_append_lt hs
  have e1 : del c l = l.take k ++ l.drop (k + 1) := by
    conv_lhs => rw [hl]
    unfold del
    rw [List.filter_append, List.filter_cons_of_neg (by simp)]
    congr 1
    · rw [List.filter_eq_self]
      intro e he
      have := g1 e.1 (List.mem_map_of_mem he)
      simpa using this.ne
    · rw [List.filter_eq_self]
      intro e he
      have := g2 e.1 (List.mem_map_of_mem he)
      simpa using this.ne'
  rw [e1, List.eraseIdx_eq_take_drop_succ]
  refine ⟨rfl, ?_⟩
  simp
  omega

theorem del_dot {t : T} {nco : ℕ} {l : Row} (h : RowOk t q nco l) (c : ℕ) (x : ℕ → ZMod q) :
    dot q (del c l) x = dot q l x - coef q l c * x c := by
  induction l with
  | nil => simp [del, coef]
  | cons e l ih =>
    have ih' := ih h.tail
    by_cases hc : e.1 = c
    · have hn : c ∉ keys l := fun hk => by have := h.lt c hk; omega
      have e1 : del c (e :: l) = del c l := by
        unfold del
        rw [List.filter_cons_of_neg (by simp [hc])]
      rw [e1, del_self hn]
      have := coef_of_mem h (e := e) (by simp)
      rw [hc] at this
      rw [this, dot_cons, hc]
      ring
    · have e1 : del c (e :: l) = e :: del c l := by
        unfold del
        rw [List.filter_cons_of_pos (by simp [hc])]
      rw [e1, dot_cons, ih', dot_cons]
      have : coef q (e :: l) c = coef q l c := by
        unfold coef
        rw [dot_cons, if_neg hc]
        simp
      rw [this]
      ring

theorem clear0_spec {t : T} {nco row colr : ℕ} : ∀ (is : List ℕ) (rows : List Row) (l : List ℕ), is.Nodup →
    (∀ r ∈ is, r < rows.length) →
    (∀ r ∈ is, r ≠ row → colr ∈ keys (rowOf rows r) ∧ RowOk t q nco (rowOf rows r)) →
    ∃ rows', clear0 row colr is rows l =
        some (rows', l ++ is.filter fun r => r ≠ row ∧ (rowOf rows r).length = 2) ∧ rows'.length = rows.length ∧
      ∀ r, rowOf rows' r = if r ∈ is ∧ r ≠ row then del colr (rowOf rows r) else rowOf rows r := by
  intro is
  induction is with
  | nil => intro rows l _ _ _; exact ⟨rows, by simp [clear0], rfl, by simp⟩
  | cons r0 is ih =>
    intro rows l hnd hlt hk
    rw [List.nodup_cons] at hnd
    rw [clear0]
    by_cases hr0 : r0 = row
    · rw [if_pos hr0]
      obtain ⟨rows', k1, k2, k3⟩ := ih rows l hnd.2 (fun r hr => hlt r (by simp [hr])) (fun r hr => hk r (by simp [hr]))
      refine ⟨rows', ?_, k2, fun r => ?_⟩
      · rw [k1, List.filter_cons_of_neg (by simp [hr0])]
      · rw [k3]
        have : (r ∈ r0 :: is ∧ r ≠ row) ↔ (r ∈ is ∧ r ≠ row) := by
          simp only [List.mem_cons]
          constructor
          · rintro ⟨h | h, h'⟩
            · exact absurd (h.trans hr0) h'
            · exact ⟨h, h'⟩
          · exact fun h => ⟨Or.inr h.1, h.2⟩
        simp only [this]
    · rw [if_neg hr0]
      have hl0 := hlt r0 (by simp)
      obtain ⟨g1, g2⟩ := hk r0 (by simp) hr0
      obtain ⟨k, v, hv1, hv2⟩ := rowLook_spec g2 g1
      rw [rowOf_get hl0]
      simp only [hv1]
      have hrow' : ∀ r, r ≠ r0 → rowOf (rows.set r0 ((rowOf rows r0).eraseIdx k)) r = rowOf rows r := by
        intro r hr
        rw [rowOf_set hl0, if_neg hr]
      have hisr : ∀ r ∈ is, r ≠ r0 := fun r hr e => hnd.1 (e ▸ hr)
      obtain ⟨rows', k1, k2, k3⟩ := ih (rows.set r0 ((rowOf rows r0).eraseIdx k))
        (if (rowOf rows r0).length = 2 then l ++ [r0] else l) hnd.2
        (fun r hr => by simpa using hlt r (by simp [hr]))
        (fun r hr hrr => by rw [hrow' r (hisr r hr)]; exact hk r (by simp [hr]) hrr)
      refine ⟨rows', ?_, by simpa using k2, fun r => ?_⟩
      · rw [k1]
        congr 2
        have hfl : (is.filter fun r => r ≠ row ∧ (rowOf (rows.set r0 ((rowOf rows r0).eraseIdx k)) r).length = 2) =
            is.filter fun r => r ≠ row ∧ (rowOf rows r).length = 2 := by
          apply List.filter_congr
          intro r hr
          rw [hrow' r (hisr r hr)]
        rw [hfl]
        by_cases h2 : (rowOf rows r0).length = 2
        · rw [if_pos h2, List.filter_cons_of_pos (by simp [hr0, h2])]
          simp
        · rw [if_neg h2, List.filter_cons_of_neg (by simp [h2])]
      · rw [k3]
        by_cases e : r = r0
        · subst e
          rw [if_neg (fun h => hnd.1 h.1), rowOf_set hl0, if_pos rfl, if_pos ⟨by simp, hr0⟩]
          exact (del_erase g2 hv2).1
        · rw [hrow' r e]
          simp [e]

/-- the state of the loop of `step0` -/
structure P0 (t : T) (q : ℕ) (Ker : (ℕ → ZMod q) → Prop) (s0 s : St) (Q : List ℕ) : Prop where
  inv : Inv t q Ker none s
  same : Same s0 s
  nodup : Q.Nodup
  good : ∀ r ∈ Q, r < s.rows.length ∧ r ∉ s.elimRow ∧ at' s.position r = none ∧ (rowOf s.rows r).length < 2
  all : ∀ r < s.rows.length, r ∉ s.elimRow → at' s.position r = none → (rowOf s.rows r).length < 2 → r ∈ Q

/-- setting the position of a row which is not eliminated -/
theorem Core.setPos {t : T} {Ker : (ℕ → ZMod q) → Prop} {s : St} (h : Core t q Ker s) {r : ℕ} (hr : r ∉ s.elimRow)
    (hlt : r < s.position.length) (a : Option ℕ) : Core t q Ker { s with position := s.position.set r a } := by
  have hp : ∀ r' ∈ s.elimRow, at' (s.position.set r a) r' = at' s.position r' := by
    intro r' hr'
    rw [at_set hlt, if_neg]
    rintro rfl
    exact hr hr'
  refine ⟨by simpa using h.npos, h.ncol, h.rowOk, h.ker, h.nodup, fun r' hr' => ?_, fun c r' hc => ?_, ?_, ?_⟩
  · dsimp only
    rw [hp r' hr']
    exact h.piv r' hr'
  · obtain ⟨h1, h2⟩ := h.ecol c r' hc
    exact ⟨h1, by dsimp only; rw [hp r' h1]; exact h2⟩
  · refine h.tri.imp_of_mem fun {r1 r2} h1 h2 h3 c hc => ?_
    dsimp only at hc
    rw [hp r1 h1] at hc
    exact h3 c hc
  · intro r1 h1 r2 h2 c hc
    dsimp only at hc
    rw [hp r1 h1] at hc
    exact h.act r1 h1 r2 h2 c hc

theorem step0One_spec {t : T} {Ker : (ℕ → ZMod q) → Prop} {s0 s : St} {x : ℕ} {l : List ℕ} (h : P0 t q Ker s0 s (x :: l)) :
    ∃ s' l', step0One s x l = some (s', l') ∧ P0 t q Ker s0 s' l' ∧
      ((s'.elimRow.length = s.elimRow.length ∧ l'.length ≤ l.length) ∨
        (s'.elimRow.length = s.elimRow.length + 1 ∧ l'.length ≤ l.length + (s0.rows.length + s0.nco))) := by
  obtain ⟨hx1, hx2, hx3, hx4⟩ := h.good x (by simp)
  have hnd := List.nodup_cons.1 h.nodup
  have hcore := h.inv.core
  unfold step0One
  rw [rowOf_get hx1]
  cases hrow : rowOf s.rows x with
  | nil =>
    simp only []
    have hxp : x < s.position.length := by rw [hcore.npos]; exact hx1
    rw [if_pos hxp]
    refine ⟨_, l, rfl, ⟨⟨hcore.setPos hx2 hxp _, ⟨h.inv.cols.len, h.inv.cols.col⟩, fun r hr => ?_, h.inv.idx⟩, h.same, hnd.2,
      fun r hr => ?_, fun r h1 h2 h3 h4 => ?_⟩, Or.inl ⟨rfl, le_rfl⟩⟩
    · dsimp only
      rw [at_set hxp]
      split_ifs with e
      · exact Or.inr ⟨rfl, by rw [e, hrow]⟩
      · exact h.inv.actPos r hr
    · dsimp only
      obtain ⟨g1, g2, g3, g4⟩ := h.good r (by simp [hr])
      refine ⟨g1, g2, ?_, g4⟩
      rw [at_set hxp, if_neg, g3]
      rintro rfl
      exact hnd.1 hr
    · dsimp only at h1 h2 h3 h4
      rw [at_set hxp] at h3
      split_ifs at h3 with e
      have := h.all r h1 h2 h3 h4
      rcases List.mem_cons.1 this with h5 | h5
      · exact absurd h5 e
      · exact h5
  | cons e l0 =>
    obtain ⟨colr, v⟩ := e
    have hl0 : l0 = [] := by
      rw [hrow] at hx4
      simp at hx4
      exact hx4
    subst hl0
    have hokx := hcore.rowOk x
    rw [hrow] at hokx
    obtain ⟨hc1, hc2⟩ := hokx.range colr (by simp)
    obtain ⟨c, rfl⟩ : ∃ c, colr = c + 1 := ⟨colr - 1, by omega⟩
    have hv : (v : ZMod q) ≠ 0 := hokx.nz (c + 1, v) (by simp)
    have hcn : c < s.nco := by omega
    obtain ⟨ol, S, hol, hS, hmem⟩ := h.inv.cols.col c hcn
    have hxS : x ∈ S := (hmem x).2 ⟨hx2, by rw [hrow]; simp⟩
    have hnum : 0 < ol.num := by rw [hS.2.1]; exact List.length_pos_of_mem hxS
    have hidx : ol.index = 0 := by
      rcases h.inv.idx c ol (by simp) hol with g | g
      · exact g
      · omega
    simp only [Nat.add_sub_cancel, hol]
    rw [if_neg (by omega), if_neg (by omega), hidx, OL.read_spec hS]
    simp only []
    have hrow1 : ∀ r, r ≠ x → rowOf (s.rows.set x [(c + 1, 1)]) r = rowOf s.rows r := by
      intro r hr
      rw [rowOf_set hx1, if_neg hr]
    have hSn : S.Nodup := hS.1.imp (fun h => h.ne)
    have hSr : ∀ r ∈ S, r < s.rows.length := fun r hr => lt_of_mem_keys ((hmem r).1 hr).2
    obtain ⟨rows', k1, k2, k3⟩ := clear0_spec (t := t) (q := q) (nco := s.nco) (row := x) (colr := c + 1) S (s.rows.set x [(c + 1, 1)]) l hSn
      (fun r hr => by simpa using hSr r hr)
      (fun r hr hrx => by
        rw [hrow1 r hrx]
        exact ⟨((hmem r).1 hr).2, hcore.rowOk r⟩)
    rw [k1]
    simp only []
    have hcle : c < s.elimCol.length := by rw [hcore.ncol]; exact hcn
    have hxp : x < s.position.length := by rw [hcore.npos]; exact hx1
    have hcl : c < s.column.length := by rw [h.inv.cols.len]; exact hcn
    have hlen' : rows'.length = s.rows.length := by simpa using k2
    have hrk : s.elimRow.length < rows'.length := by rw [hlen']; exact hcore.rank_lt hx2 hx1
    rw [elim_spec (s := { s with rows := rows' }) hcle hxp hrk hcl, Option.map_some]
    dsimp only
    -- the new rows
    have hrx : rowOf rows' x = [(c + 1, 1)] := by rw [k3, if_neg (fun h => h.2 rfl), rowOf_set hx1, if_pos rfl]
    have hro : ∀ r, r ≠ x → rowOf rows' r = if r ∈ S then del (c + 1) (rowOf s.rows r) else rowOf s.rows r := by
      intro r hr
      rw [k3, hrow1 r hr]
      simp [hr]
    have hq1 : (1 : ℤ) < q := by exact_mod_cast hq.out.one_lt
    have hokx' : RowOk t q s.nco [(c + 1, 1)] := ⟨by simp, by simpa using hc2, by simp, by simpa using fun _ => hq1⟩
    have hok' : ∀ r, RowOk t q s.nco (rowOf rows' r) := by
      intro r
      by_cases e : r = x
      · rw [e, hrx]; exact hokx'
      · rw [hro r e]
        split_ifs
        · exact del_ok (hcore.rowOk r) _
        · exact hcore.rowOk r
    refine ⟨_, _, rfl, ⟨⟨?_, ?_, ?_, ?_⟩, ?_, ?_, ?_, ?_⟩, Or.inr ⟨by simp, ?_⟩⟩
    · refine hcore.pivot (row := x) (c := c) (u := (v : ZMod q)⁻¹) hx2 (by rw [hrow]; simp) ⟨rfl, hlen'⟩ (by simp) (by simp) hok' (inv_ne_zero hv) ?_ ?_ ?_ ?_ rfl ?_ ?_ ?_
      · intro y
        dsimp only
        rw [hrx, hrow]
        simp only [dot_cons, dot_nil, add_zero]
        rw [← mul_assoc, inv_mul_cancel₀ hv]
        simp
      · dsimp only
        rw [hrx]
        simp [coef]
      · intro r hr
        dsimp only
        have hne : r ≠ x := fun e => hx2 (e ▸ hr)
        rw [hro r hne, if_neg]
        exact fun hrS => ((hmem r).1 hrS).1 hr
      · intro r hr hne
        dsimp only
        rw [hro r hne, hrx]
        by_cases hrS : r ∈ S
        · rw [if_pos hrS]
          refine ⟨fun hk => ((keys_del _ _ _).1 hk).2 rfl, -coef q (rowOf s.rows r) (c + 1), fun y => ?_⟩
          rw [del_dot (hcore.rowOk r)]
          simp only [dot_cons, dot_nil, add_zero, Int.cast_one, one_mul]
          ring
        · rw [if_neg hrS]
          exact ⟨fun hk => hrS ((hmem r).2 ⟨hr, hk⟩), 0, by simp⟩
      · intro r hr
        dsimp only
        rw [at_set hxp, if_neg]
        exact fun e => hx2 (e ▸ hr)
      · dsimp only
        rw [at_set hxp, if_pos rfl]
      · intro d
        dsimp only
        rw [at_set hcle]
    · refine ⟨by simpa using h.inv.cols.len, fun d hd => ?_⟩
      dsimp only at hd ⊢
      by_cases e : d = c
      · subst e
        refine ⟨OL.new 0, [], List.getElem?_set_self hcl, OL.new_holds 0, fun r => ?_⟩
        simp only [List.not_mem_nil, false_iff, not_and, List.mem_append, List.mem_singleton, not_or]
        intro hr
        rw [hro r hr.2]
        split_ifs with hrS
        · exact fun hk => ((keys_del _ _ _).1 hk).2 rfl
        · exact fun hk => hrS ((hmem r).2 ⟨hr.1, hk⟩)
      · obtain ⟨ol', S', g1, g2, g3⟩ := h.inv.cols.col d hd
        refine ⟨ol', S', by rw [List.getElem?_set_ne (Ne.symm e)]; exact g1, g2, fun r => ?_⟩
        rw [g3]
        simp only [List.mem_append, List.mem_singleton, not_or]
        by_cases hrx2 : r = x
        · subst hrx2
          rw [hrow]
          simp [e]
        · rw [hro r hrx2]
          split_ifs
          · rw [keys_del]
            simp [hrx2, e]
          · simp [hrx2]
    · intro r hr
      dsimp only at hr ⊢
      simp only [List.mem_append, List.mem_singleton, not_or] at hr
      rw [at_set hxp, if_neg hr.2, hro r hr.2]
      rcases h.inv.actPos r hr.1 with g | ⟨g1, g2⟩
      · exact Or.inl g
      · refine Or.inr ⟨g1, ?_⟩
        rw [g2]
        split_ifs <;> rfl
    · intro d ol' _ hd
      dsimp only at hd
      by_cases e : d = c
      · subst e
        rw [List.getElem?_set_self hcl] at hd
        simp only [Option.some.injEq] at hd
        subst hd
        exact Or.inl rfl
      · rw [List.getElem?_set_ne (Ne.symm e)] at hd
        exact h.inv.idx d ol' (by simp) hd
    · exact h.same.trans ⟨rfl, hlen'⟩
    · rw [List.nodup_append]
      refine ⟨hnd.2, hSn.filter _, fun a ha b hb => ?_⟩
      rintro rfl
      simp only [List.mem_filter, decide_eq_true_eq] at hb
      have := (h.good a (by simp [ha])).2.2.2
      rw [hrow1 a hb.2.1] at hb
      omega
    · intro r hr
      dsimp only
      simp only [List.mem_append, List.mem_filter, decide_eq_true_eq] at hr
      have hrx2 : r ≠ x := by
        rcases hr with hr | hr
        · rintro rfl; exact hnd.1 hr
        · exact hr.2.1
      rw [hlen', at_set hxp, if_neg hrx2, hro r hrx2]
      simp only [List.mem_append, List.mem_singleton, not_or]
      rcases hr with hr | hr
      · obtain ⟨g1, g2, g3, g4⟩ := h.good r (by simp [hr])
        refine ⟨g1, ⟨g2, hrx2⟩, g3, ?_⟩
        split_ifs
        · exact lt_of_le_of_lt (List.length_filter_le _ _) g4
        · exact g4
      · obtain ⟨hr1, hr2⟩ := (hmem r).1 hr.1
        rw [hrow1 r hrx2] at hr
        refine ⟨hSr r hr.1, ⟨hr1, hrx2⟩, ?_, ?_⟩
        · rcases h.inv.actPos r hr1 with g | ⟨_, g⟩
          · exact g
          · rw [g] at hr2
            simp at hr2
        · rw [if_pos hr.1]
          obtain ⟨k, w, _, hw⟩ := rowLook_spec (hcore.rowOk r) hr2
          have := (del_erase (hcore.rowOk r) hw).2
          omega
    · intro r h1 h2 h3 h4
      dsimp only at h1 h2 h3 h4
      simp only [List.mem_append, List.mem_singleton, not_or] at h2
      rw [at_set hxp, if_neg h2.2] at h3
      rw [hro r h2.2] at h4
      rw [hlen'] at h1
      have hsp : ∀ g : r ∈ x :: l, r ∈ l := fun g => (List.mem_cons.1 g).resolve_left h2.2
      simp only [List.mem_append, List.mem_filter, decide_eq_true_eq]
      by_cases hrS : r ∈ S
      · rw [if_pos hrS] at h4
        have hr2 := ((hmem r).1 hrS).2
        obtain ⟨k, w, _, hw⟩ := rowLook_spec (hcore.rowOk r) hr2
        have hl := (del_erase (hcore.rowOk r) hw).2
        by_cases hlen2 : (rowOf s.rows r).length = 2
        · exact Or.inr ⟨hrS, h2.2, by rw [hrow1 r h2.2]; exact hlen2⟩
        · exact Or.inl (hsp (h.all r h1 h2.1 h3 (by omega)))
      · rw [if_neg hrS] at h4
        exact Or.inl (hsp (h.all r h1 h2.1 h3 h4))
    · rw [List.length_append]
      have h1 := length_le_of_nodup hSn hSr
      have h2 := List.length_filter_le (fun r => decide (r ≠ x ∧ (rowOf (s.rows.set x [(c + 1, 1)]) r).length = 2)) S
      have h3 := h.same.2
      omega

theorem step0_spec {t : T} {Ker : (ℕ → ZMod q) → Prop} {s : St} (h : Inv t q Ker none s) (h0 : s.elimRow = [])
    (hp : ∀ r, at' s.position r = none) {fuel : ℕ} (hf : (s.rows.length + 1) * (s.rows.length + s.nco + 1) ≤ fuel) :
    ∃ s', step0 fuel s = some s' ∧ Inv t q Ker none s' ∧ Same s s' ∧ NE s' := by
  unfold step0
  obtain ⟨Q, hQ⟩ : ∃ Q, Q = (List.range s.rows.length).filter fun r => ((s.rows[r]?).getD []).length < 2 := ⟨_, rfl⟩
  rw [← hQ]
  have hQn : Q.Nodup := by rw [hQ]; exact List.nodup_range.filter _
  have hQm : ∀ r, r ∈ Q ↔ r < s.rows.length ∧ (rowOf s.rows r).length < 2 := by
    intro r
    rw [hQ, List.mem_filter, List.mem_range, decide_eq_true_eq]
    rfl
  have hQl : Q.length ≤ s.rows.length := length_le_of_nodup hQn fun r hr => ((hQm r).1 hr).1
  obtain ⟨s', k1, k2⟩ := listLoop_spec (one := step0One) (P0 t q Ker s) (m := s.rows.length) (K := s.rows.length + s.nco)
    (fun s' x l hs' => step0One_spec hs')
    (fun s' l hs' => by rw [← hs'.same.2]; exact hs'.inv.core.rank_le) fuel s Q
    ⟨h, Same.refl s, hQn, fun r hr => ⟨((hQm r).1 hr).1, by rw [h0]; simp, hp r, ((hQm r).1 hr).2⟩,
      fun r h1 _ _ h2 => (hQm r).2 ⟨h1, h2⟩⟩ (by
        rw [h0]
        simp only [List.length_nil, Nat.sub_zero]
        rw [add_mul] at hf
        omega)
  refine ⟨s', k1, k2.inv, k2.same, fun r h1 h2 h3 h4 => ?_⟩
  have := k2.all r h1 h2 h3 (by rw [h4]; simp)
  simp at this

end Eclib.Elim
