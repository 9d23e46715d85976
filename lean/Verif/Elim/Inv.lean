import Verif.Elim.RowProps

/-!
# The invariant of structured elimination
-/

namespace Eclib.Elim

set_option linter.unusedSectionVars false

open Svec (T smod)
open Mat (cast_smod smod_abs_lt)

variable {q : ℕ} [hq : Fact q.Prime]

/-- row `r` of a list of rows -/
def rowOf (rows : List Row) (r : ℕ) : Row := (rows[r]?).getD []

/-- an entry of `position` or `elim_col` -/
def at' (l : List (Option ℕ)) (i : ℕ) : Option ℕ := (l[i]?).getD none

theorem getD_set {α : Type} (l : List α) (i : ℕ) (a d : α) (h : i < l.length) (j : ℕ) :
    ((l.set i a)[j]?).getD d = if j = i then a else (l[j]?).getD d := by
  rw [List.getElem?_set]
  by_cases c : i = j
  · subst c; simp [h]
  · rw [if_neg c, if_neg (Ne.symm c)]

theorem rowOf_set {rows : List Row} {i : ℕ} (h : i < rows.length) (l : Row) (r : ℕ) :
    rowOf (rows.set i l) r = if r = i then l else rowOf rows r := getD_set rows i l [] h r

theorem at_set {l : List (Option ℕ)} {i : ℕ} (h : i < l.length) (a : Option ℕ) (j : ℕ) :
    at' (l.set i a) j = if j = i then a else at' l j := getD_set l i a none h j

theorem rowOf_get {rows : List Row} {i : ℕ} (h : i < rows.length) : rows[i]? = some (rowOf rows i) := by
  unfold rowOf
  rw [List.getElem?_eq_getElem h]
  rfl

theorem at_get {l : List (Option ℕ)} {i : ℕ} (h : i < l.length) : l[i]? = some (at' l i) := by
  unfold at'
  rw [List.getElem?_eq_getElem h]
  rfl

theorem lt_of_mem_keys {rows : List Row} {r c : ℕ} (h : c ∈ keys (rowOf rows r)) : r < rows.length := by
  by_contra hr
  unfold rowOf at h
  rw [List.getElem?_eq_none (by omega)] at h
  simp at h

/-- The rows and the pivots found so far.  `Ker` is the kernel of the matrix given. -/
structure Core (t : T) (q : ℕ) (Ker : (ℕ → ZMod q) → Prop) (s : St) : Prop where
  npos : s.position.length = s.rows.length
  ncol : s.elimCol.length = s.nco
  rowOk : ∀ r, RowOk t q s.nco (rowOf s.rows r)
  ker : ∀ x, (∀ r, dot q (rowOf s.rows r) x = 0) ↔ Ker x
  nodup : s.elimRow.Nodup
  piv : ∀ r ∈ s.elimRow, r < s.rows.length ∧ ∃ c, at' s.position r = some (c + 1) ∧ c < s.nco ∧
    at' s.elimCol c = some r ∧ coef q (rowOf s.rows r) (c + 1) = 1
  ecol : ∀ c r, at' s.elimCol c = some r → r ∈ s.elimRow ∧ at' s.position r = some (c + 1)
  tri : s.elimRow.Pairwise fun r r' => ∀ c, at' s.position r = some (c + 1) → c + 1 ∉ keys (rowOf s.rows r')
  act : ∀ r ∈ s.elimRow, ∀ r', r' ∉ s.elimRow → ∀ c, at' s.position r = some (c + 1) → c + 1 ∉ keys (rowOf s.rows r')

/-- the rows of the columns -/
structure Cols (s : St) : Prop where
  len : s.column.length = s.nco
  col : ∀ c < s.nco, ∃ ol S, s.column[c]? = some ol ∧ Holds ol S ∧
    ∀ r, r ∈ S ↔ r ∉ s.elimRow ∧ c + 1 ∈ keys (rowOf s.rows r)

/-- rows which are not eliminated and have a position are empty -/
def ActPos (s : St) : Prop :=
  ∀ r, r ∉ s.elimRow → at' s.position r = none ∨ (at' s.position r = some 0 ∧ rowOf s.rows r = [])

/-- the lists are read from the beginning, except possibly that of column `c0` -/
def Idx (c0 : Option ℕ) (s : St) : Prop :=
  ∀ c ol, c0 ≠ some (c + 1) → s.column[c]? = some ol → ol.index = 0 ∨ ol.num = 0

/-- rows which are not eliminated and have no position are not empty -/
def NE (s : St) : Prop :=
  ∀ r < s.rows.length, r ∉ s.elimRow → at' s.position r = none → rowOf s.rows r ≠ []

/-- the invariant -/
structure Inv (t : T) (q : ℕ) (Ker : (ℕ → ZMod q) → Prop) (c0 : Option ℕ) (s : St) : Prop where
  core : Core t q Ker s
  cols : Cols s
  actPos : ActPos s
  idx : Idx c0 s

/-- the same elimination problem: numbers of rows and columns -/
def Same (s s' : St) : Prop := s'.nco = s.nco ∧ s'.rows.length = s.rows.length

theorem Core.rank_le {t : T} {Ker : (ℕ → ZMod q) → Prop} {s : St} (h : Core t q Ker s) :
    s.elimRow.length ≤ s.rows.length := by
  have h1 : s.elimRow.toFinset ⊆ Finset.range s.rows.length := by
    intro r hr
    rw [List.mem_toFinset] at hr
    exact Finset.mem_range.2 (h.piv r hr).1
  have h2 := Finset.card_le_card h1
  rwa [List.toFinset_card_of_nodup h.nodup, Finset.card_range] at h2

theorem Core.rank_lt {t : T} {Ker : (ℕ → ZMod q) → Prop} {s : St} (h : Core t q Ker s) {row : ℕ}
    (h1 : row ∉ s.elimRow) (h2 : row < s.rows.length) : s.elimRow.length < s.rows.length := by
  have h3 : (row :: s.elimRow).toFinset ⊆ Finset.range s.rows.length := by
    intro r hr
    rw [List.mem_toFinset] at hr
    rcases List.mem_cons.1 hr with rfl | hr
    · exact Finset.mem_range.2 h2
    · exact Finset.mem_range.2 (h.piv r hr).1
  have h4 := Finset.card_le_card h3
  rw [List.toFinset_card_of_nodup (List.nodup_cons.2 ⟨h1, h.nodup⟩), Finset.card_range] at h4
  simp at h4
  omega

theorem mem_keys_of_dot {t t' : T} {nco nco' : ℕ} {l l' : Row} (h : RowOk t q nco l) (h' : RowOk t' q nco' l') {u : ZMod q}
    (hu : u ≠ 0) (hd : ∀ x, dot q l' x = u * dot q l x) (c : ℕ) : c ∈ keys l' ↔ c ∈ keys l := by
  rw [← coef_ne_zero_iff h, ← coef_ne_zero_iff h']
  unfold coef
  rw [hd]
  simp [hu]

/-- One pivot: row `row` is scaled, its multiples are added to the other rows. -/
theorem Core.pivot {t : T} {Ker : (ℕ → ZMod q) → Prop} {s s' : St} (h : Core t q Ker s) {row c : ℕ}
    (hrow : row ∉ s.elimRow) (hc : c + 1 ∈ keys (rowOf s.rows row)) (hsame : Same s s')
    (hpl : s'.position.length = s.position.length) (hel : s'.elimCol.length = s.elimCol.length)
    (hok : ∀ r, RowOk t q s.nco (rowOf s'.rows r)) {u : ZMod q} (hu : u ≠ 0)
    (hscale : ∀ x, dot q (rowOf s'.rows row) x = u * dot q (rowOf s.rows row) x)
    (hone : coef q (rowOf s'.rows row) (c + 1) = 1)
    (hold : ∀ r ∈ s.elimRow, rowOf s'.rows r = rowOf s.rows r)
    (hother : ∀ r, r ∉ s.elimRow → r ≠ row → c + 1 ∉ keys (rowOf s'.rows r) ∧
      ∃ w : ZMod q, ∀ x, dot q (rowOf s'.rows r) x = dot q (rowOf s.rows r) x + w * dot q (rowOf s'.rows row) x)
    (helim : s'.elimRow = s.elimRow ++ [row]) (hpos : ∀ r ∈ s.elimRow, at' s'.position r = at' s.position r)
    (hposr : at' s'.position row = some (c + 1))
    (hecol : ∀ d, at' s'.elimCol d = if d = c then some row else at' s.elimCol d) : Core t q Ker s' := by
  have hrm : row < s.rows.length := lt_of_mem_keys hc
  have hcn : c < s.nco := by have := ((h.rowOk row).range _ hc).2; omega
  have hkeys := mem_keys_of_dot (h.rowOk row) (hok row) hu hscale
  have hnone : at' s.elimCol c = none := by
    cases hh : at' s.elimCol c with
    | none => rfl
    | some r =>
      obtain ⟨h1, h2⟩ := h.ecol c r hh
      exact absurd hc (h.act r h1 row hrow c h2)
  have hne : ∀ r ∈ s.elimRow, r ≠ row := fun r hr e => hrow (e ▸ hr)
  -- pivots of earlier rows stay away from the active rows
  have hact : ∀ r ∈ s.elimRow, ∀ r', r' ∉ s.elimRow → ∀ d, at' s.position r = some (d + 1) →
      d + 1 ∉ keys (rowOf s'.rows r') := by
    intro r hr r' hr' d hd
    by_cases e : r' = row
    · subst e
      rw [hkeys]
      exact h.act r hr r' hr' d hd
    · obtain ⟨_, w, hw⟩ := hother r' hr' e
      intro hmem
      rw [← coef_ne_zero_iff (hok r')] at hmem
      apply hmem
      have h1 : coef q (rowOf s.rows r') (d + 1) = 0 := coef_of_notMem (h.act r hr r' hr' d hd)
      have h2 : coef q (rowOf s'.rows row) (d + 1) = 0 := by
        apply coef_of_notMem
        rw [hkeys]
        exact h.act r hr row hrow d hd
      unfold coef at h1 h2 ⊢
      rw [hw, h1, h2]
      simp
  refine ⟨by rw [hpl, hsame.2, h.npos], by rw [hel, hsame.1, h.ncol], by rw [hsame.1]; exact hok, fun x => ?_, ?_, ?_,
    ?_, ?_, ?_⟩
  · rw [← h.ker x]
    constructor
    · intro hx r
      have hrow0 : dot q (rowOf s.rows row) x = 0 := by
        have := hx row
        rw [hscale] at this
        exact (mul_eq_zero.1 this).resolve_left hu
      by_cases h1 : r ∈ s.elimRow
      · rw [← hold r h1]; exact hx r
      · by_cases h2 : r = row
        · rw [h2]; exact hrow0
        · obtain ⟨_, w, hw⟩ := hother r h1 h2
          have := hx r
          rw [hw, hx row, mul_zero, add_zero] at this
          exact this
    · intro hx r
      have hrow0 : dot q (rowOf s'.rows row) x = 0 := by rw [hscale, hx row, mul_zero]
      by_cases h1 : r ∈ s.elimRow
      · rw [hold r h1]; exact hx r
      · by_cases h2 : r = row
        · rw [h2]; exact hrow0
        · obtain ⟨_, w, hw⟩ := hother r h1 h2
          rw [hw, hx r, hrow0, mul_zero, add_zero]
  · rw [helim]
    exact List.nodup_append.2 ⟨h.nodup, by simp, fun a ha b hb => by
      rw [List.mem_singleton] at hb; exact hb ▸ hne a ha⟩
  · intro r hr
    rw [helim, List.mem_append, List.mem_singleton] at hr
    rw [hsame.2, hsame.1]
    rcases hr with hr | rfl
    · obtain ⟨h1, d, h2, h3, h4, h5⟩ := h.piv r hr
      refine ⟨h1, d, by rw [hpos r hr, h2], h3, ?_, by rw [hold r hr, h5]⟩
      rw [hecol, if_neg, h4]
      rintro rfl
      rw [hnone] at h4
      simp at h4
    · exact ⟨hrm, c, hposr, hcn, by rw [hecol, if_pos rfl], hone⟩
  · intro d r hd
    rw [hecol] at hd
    rw [helim, List.mem_append, List.mem_singleton]
    split_ifs at hd with e
    · simp only [Option.some.injEq] at hd
      subst hd e
      exact ⟨Or.inr rfl, hposr⟩
    · obtain ⟨h1, h2⟩ := h.ecol d r hd
      exact ⟨Or.inl h1, by rw [hpos r h1, h2]⟩
  · rw [helim, List.pairwise_append]
    refine ⟨?_, by simp, fun r hr r' hr' d hd => ?_⟩
    · refine h.tri.imp_of_mem fun {r r'} hr hr' h1 d hd => ?_
      rw [hpos r hr] at hd
      rw [hold r' hr']
      exact h1 d hd
    · rw [List.mem_singleton] at hr'
      subst hr'
      rw [hpos r hr] at hd
      exact hact r hr _ hrow d hd
  · intro r hr r' hr' d hd
    rw [helim, List.mem_append, List.mem_singleton] at hr hr'
    push Not at hr'
    rcases hr with hr | rfl
    · rw [hpos r hr] at hd
      exact hact r hr r' hr'.1 d hd
    · rw [hposr] at hd
      simp only [Option.some.injEq, Nat.add_right_cancel_iff] at hd
      subst hd
      exact (hother r' hr'.1 hr'.2).1

/-! ### clearing a column -/

/-- the row obtained by clearing column `col0` with the row `l1` -/
def nw (t : T) (q : ℕ) (col0 : ℕ) (l1 l2 : Row) : Row :=
  (merge t q (smod t ((q : ℤ) - ((rowLook l2 col0).map (·.2)).getD 0) q) l1 l2).1

theorem nw_spec {t : T} {nco col0 : ℕ} {l1 l2 : Row} (h1 : RowOk t q nco l1) (h2 : RowOk t q nco l2)
    (hone : coef q l1 col0 = 1) (hc : col0 ∈ keys l2) :
    RowOk t q nco (nw t q col0 l1 l2) ∧
      (∀ x, dot q (nw t q col0 l1 l2) x = dot q l2 x + (-coef q l2 col0) * dot q l1 x) ∧
      (∀ c, coef q (nw t q col0 l1 l2) c = coef q l2 c - coef q l2 col0 * coef q l1 c) ∧
      col0 ∉ keys (nw t q col0 l1 l2) := by
  obtain ⟨k, v, hv1, hv2⟩ := rowLook_spec h2 hc
  have hmem := List.mem_of_getElem? hv2
  have hcv : coef q l2 col0 = (v : ZMod q) := coef_of_mem h2 hmem
  have hv0 := h2.nz _ hmem
  have hcast : ((smod t ((q : ℤ) - v) q : ℤ) : ZMod q) = -(v : ZMod q) := by rw [cast_smod]; simp
  have hok : RowOk t q nco (nw t q col0 l1 l2) := by
    unfold nw
    rw [hv1]
    exact merge_ok (by simp only [Option.map_some, Option.getD_some]; rw [hcast]; exact neg_ne_zero.2 hv0)
      (fun _ => smod_abs_lt t _) h1 h2
  have hdot : ∀ x, dot q (nw t q col0 l1 l2) x = dot q l2 x + (-coef q l2 col0) * dot q l1 x := by
    intro x
    unfold nw
    rw [hv1, merge_dot]
    simp only [Option.map_some, Option.getD_some]
    rw [hcast, hcv]
    ring
  have hcoef : ∀ c, coef q (nw t q col0 l1 l2) c = coef q l2 c - coef q l2 col0 * coef q l1 c := by
    intro c
    unfold coef at hdot ⊢
    rw [hdot]
    ring
  refine ⟨hok, hdot, hcoef, ?_⟩
  rw [← coef_ne_zero_iff hok, hcoef, hone]
  simp

theorem record_map (ev : Ev) (row2 : ℕ) (l1 : Row) (F : ℕ × ℤ → List ℕ) (E : ℕ × ℤ → Ev) :
    record ev row2 (l1.map F) (l1.map E) = l1.map fun e => if E e = ev then F e ++ [row2] else F e := by
  unfold record
  induction l1 with
  | nil => rfl
  | cons e l ih => simp only [List.map_cons, List.zipWith_cons_cons, ih]

theorem clearRows_spec {t : T} {nco row col0 : ℕ} (fr : Bool) {l1 : Row} (h1 : RowOk t q nco l1)
     : ∀ (is : List ℕ) (cc : CC) (F G : ℕ × ℤ → List ℕ), is.Nodup →
      (∀ r ∈ is, r < cc.rows.length) → (∀ r ∈ is, r < cc.position.length) →
      (∀ r ∈ is, r ≠ row → col0 ∈ keys (rowOf cc.rows r) ∧ RowOk t q nco (rowOf cc.rows r)) →
      cc.ins = l1.map F → cc.outs = l1.map G →
      ∃ cc', clearRows t q fr row col0 l1 is cc = some cc' ∧ cc'.rows.length = cc.rows.length ∧
        cc'.position.length = cc.position.length ∧
        (∀ r, rowOf cc'.rows r = if r ∈ is ∧ r ≠ row then nw t q col0 l1 (rowOf cc.rows r) else rowOf cc.rows r) ∧
        (cc'.ins = l1.map fun e => F e ++ is.filter fun r => r ≠ row ∧ e.1 ∉ keys (rowOf cc.rows r)) ∧
        (cc'.outs = l1.map fun e => G e ++ is.filter fun r => r ≠ row ∧ e.1 ∈ keys (rowOf cc.rows r) ∧
          e.1 ∉ keys (nw t q col0 l1 (rowOf cc.rows r))) ∧
        (∀ r, at' cc'.position r = if fr = true ∧ r ∈ is ∧ r ≠ row ∧ nw t q col0 l1 (rowOf cc.rows r) = [] then some 0
          else at' cc.position r) ∧
        ∃ ext, cc'.L = cc.L ++ ext ∧ ext.length ≤ is.length ∧ (∀ r ∈ ext, r ∈ is) ∧ (fr = false → ext = []) := by
  intro is
  induction is with
  | nil =>
    intro cc F G _ _ _ _ h2 h3
    exact ⟨cc, rfl, rfl, rfl, by simp, by simpa using h2, by simpa using h3, by simp, [], by simp⟩
  | cons r0 is ih =>
    intro cc F G hnd hlt hltp hrows hins houts
    rw [List.nodup_cons] at hnd
    rw [clearRows]
    by_cases hr0 : r0 = row
    · rw [if_pos hr0]
      obtain ⟨cc', k1, k2, k3, k4, k5, k6, k7, ext, k8, k9, k10, k11⟩ := ih cc F G hnd.2 (fun r hr => hlt r (by simp [hr]))
        (fun r hr => hltp r (by simp [hr])) (fun r hr => hrows r (by simp [hr])) hins houts
      refine ⟨cc', k1, k2, k3, fun r => ?_, ?_, ?_, fun r => ?_, ext, k8, by simp; omega, fun r hr => by simp [k10 r hr], k11⟩
      · rw [k4]
        have : (r ∈ r0 :: is ∧ r ≠ row) ↔ (r ∈ is ∧ r ≠ row) := by
          simp only [List.mem_cons]
          constructor
          · rintro ⟨h | h, h'⟩
            · exact absurd (h.trans hr0) h'
            · exact ⟨h, h'⟩
          · exact fun h => ⟨Or.inr h.1, h.2⟩
        simp only [this]
      · rw [k5]
        apply List.map_congr_left
        intro e _
        rw [List.filter_cons_of_neg (by simp [hr0])]
      · rw [k6]
        apply List.map_congr_left
        intro e _
        rw [List.filter_cons_of_neg (by simp [hr0])]
      · rw [k7]
        have : (fr = true ∧ r ∈ r0 :: is ∧ r ≠ row ∧ nw t q col0 l1 (rowOf cc.rows r) = []) ↔
            (fr = true ∧ r ∈ is ∧ r ≠ row ∧ nw t q col0 l1 (rowOf cc.rows r) = []) := by
          simp only [List.mem_cons]
          constructor
          · rintro ⟨h0, h | h, h', h''⟩
            · exact absurd (h.trans hr0) h'
            · exact ⟨h0, h, h', h''⟩
          · exact fun h => ⟨h.1, Or.inr h.2.1, h.2.2⟩
        simp only [this]
    · rw [if_neg hr0]
      have hr0l := hlt r0 (by simp)
      have hr0p := hltp r0 (by simp)
      obtain ⟨hck, hok2⟩ := hrows r0 (by simp) hr0
      obtain ⟨k, v, hv1, hv2⟩ := rowLook_spec hok2 hck
      rw [rowOf_get hr0l]
      simp only []
      rw [hv1]
      simp only []
      have hnw : (merge t q (smod t ((q : ℤ) - v) q) l1 (rowOf cc.rows r0)).1 = nw t q col0 l1 (rowOf cc.rows r0) := by
        unfold nw
        rw [hv1]
        rfl
      have hevs := merge_evs (v2 := smod t ((q : ℤ) - v) q) h1 hok2
      rw [hevs, hnw, hins, houts, record_map, record_map]
      obtain ⟨c, hc⟩ : ∃ c, c = (if fr = true then checkRow (rowOf cc.rows r0).length (nw t q col0 l1 (rowOf cc.rows r0)).length
        r0 cc.position cc.L else (cc.position, cc.L)) := ⟨_, rfl⟩
      rw [← hc]
      have hcl : c.1.length = cc.position.length := by
        rw [hc]
        unfold checkRow
        split_ifs <;> simp
      have hcp : ∀ r, at' c.1 r = if fr = true ∧ r = r0 ∧ nw t q col0 l1 (rowOf cc.rows r0) = [] then some 0 else at' cc.position r := by
        intro r
        rw [hc]
        unfold checkRow
        by_cases hf : fr = true
        · simp only [hf, if_true, true_and]
          by_cases hn : nw t q col0 l1 (rowOf cc.rows r0) = []
          · simp only [hn, List.length_nil, if_true, and_true, show (0 : ℕ) < 3 by omega]
            exact at_set hr0p _ _
          · have hl : (nw t q col0 l1 (rowOf cc.rows r0)).length ≠ 0 := fun h => hn (List.eq_nil_of_length_eq_zero h)
            simp only [hl, hn, and_false, if_false]
            split_ifs <;> rfl
        · simp [hf]
      obtain ⟨e0, hce, hce1, hce2, hce3⟩ : ∃ e0, c.2 = cc.L ++ e0 ∧ e0.length ≤ 1 ∧ (∀ r ∈ e0, r = r0) ∧ (fr = false → e0 = []) := by
        rw [hc]
        unfold checkRow
        split_ifs with g1 g2 g3 g4
        · exact ⟨[], by simp⟩
        · exact ⟨[r0], rfl, by simp, by simp, fun h => by rw [h] at g1; cases g1⟩
        · exact ⟨[], by simp⟩
        · exact ⟨[], by simp⟩
        · exact ⟨[], by simp⟩
      have hrow' : ∀ r, r ≠ r0 → rowOf (cc.rows.set r0 (nw t q col0 l1 (rowOf cc.rows r0))) r = rowOf cc.rows r := by
        intro r hr
        rw [rowOf_set hr0l, if_neg hr]
      have hisr : ∀ r ∈ is, r ≠ r0 := fun r hr e => hnd.1 (e ▸ hr)
      obtain ⟨cc', k1, k2, k3, k4, k5, k6, k7, ext, k8, k9, k10, k11⟩ := ih ⟨cc.rows.set r0 (nw t q col0 l1 (rowOf cc.rows r0)), c.1,
        l1.map fun e => if evOf (rowOf cc.rows r0) (nw t q col0 l1 (rowOf cc.rows r0)) e = Ev.isIn then F e ++ [r0] else F e,
        l1.map fun e => if evOf (rowOf cc.rows r0) (nw t q col0 l1 (rowOf cc.rows r0)) e = Ev.isOut then G e ++ [r0] else G e,
        c.2⟩ _ _ hnd.2 (fun r hr => by simpa using hlt r (by simp [hr])) (fun r hr => by simpa [hcl] using hltp r (by simp [hr]))
        (fun r hr hrr => by
          simp only []
          rw [hrow' r (hisr r hr)]
          exact hrows r (by simp [hr]) hrr) rfl rfl
      simp only [List.length_set] at k2 k3
      refine ⟨cc', k1, k2, k3.trans hcl, fun r => ?_, ?_, ?_, fun r => ?_, e0 ++ ext, ?_, ?_, ?_, ?_⟩
      · rw [k4]
        simp only []
        by_cases e : r = r0
        · subst e
          rw [if_neg (fun h => hnd.1 h.1), rowOf_set hr0l, if_pos rfl, if_pos ⟨by simp, hr0⟩]
        · rw [hrow' r e]
          simp [e]
      · rw [k5]
        apply List.map_congr_left
        intro e _
        have hfl : (is.filter fun r => r ≠ row ∧ e.1 ∉ keys (rowOf (cc.rows.set r0 (nw t q col0 l1 (rowOf cc.rows r0))) r)) =
            is.filter fun r => r ≠ row ∧ e.1 ∉ keys (rowOf cc.rows r) := by
          apply List.filter_congr
          intro r hr
          rw [hrow' r (hisr r hr)]
        simp only [hfl]
        by_cases hk : e.1 ∈ keys (rowOf cc.rows r0)
        · rw [List.filter_cons_of_neg (by simp [hk]), if_neg]
          unfold evOf
          rw [if_pos hk]
          split_ifs <;> simp
        · rw [List.filter_cons_of_pos (by simp [hk, hr0]), if_pos]
          · simp
          · unfold evOf
            rw [if_neg hk]
      · rw [k6]
        apply List.map_congr_left
        intro e _
        have hfl : (is.filter fun r => r ≠ row ∧ e.1 ∈ keys (rowOf (cc.rows.set r0 (nw t q col0 l1 (rowOf cc.rows r0))) r) ∧
              e.1 ∉ keys (nw t q col0 l1 (rowOf (cc.rows.set r0 (nw t q col0 l1 (rowOf cc.rows r0))) r))) =
            is.filter fun r => r ≠ row ∧ e.1 ∈ keys (rowOf cc.rows r) ∧ e.1 ∉ keys (nw t q col0 l1 (rowOf cc.rows r)) := by
          apply List.filter_congr
          intro r hr
          rw [hrow' r (hisr r hr)]
        simp only [hfl]
        by_cases hk : e.1 ∈ keys (rowOf cc.rows r0) ∧ e.1 ∉ keys (nw t q col0 l1 (rowOf cc.rows r0))
        · rw [List.filter_cons_of_pos (by simp [hk, hr0]), if_pos]
          · simp
          · unfold evOf
            rw [if_pos hk.1, if_neg hk.2]
        · rw [List.filter_cons_of_neg (by
            simp only [decide_eq_true_eq]
            exact fun h => hk h.2), if_neg]
          unfold evOf
          by_cases hk1 : e.1 ∈ keys (rowOf cc.rows r0)
          · rw [if_pos hk1, if_pos (by
              by_contra h
              exact hk ⟨hk1, h⟩)]
            simp
          · rw [if_neg hk1]
            simp
      · rw [k7]
        simp only []
        by_cases e : r = r0
        · subst e
          rw [if_neg (fun h => hnd.1 h.2.1), hcp]
          simp [hr0]
        · rw [hrow' r e, hcp, if_neg (fun h => e h.2.1) (c := fr = true ∧ r = r0 ∧ _)]
          simp [e]
      · rw [k8]
        simp only []
        rw [hce, List.append_assoc]
      · simp; omega
      · intro r hr
        rcases List.mem_append.1 hr with h | h
        · simp [hce2 r h]
        · simp [k10 r h]
      · intro hf
        rw [hce3 hf, k11 hf]
        rfl

end Eclib.Elim
