import Verif.Elim.Steps2
import Verif.Mat.Kernel

/-!
# Standard elimination and the dense step
-/

namespace Eclib.Elim

set_option linter.unusedSectionVars false

open Svec (T smod)

variable {q : ℕ} [hq : Fact q.Prime]

/-- what is assumed of the library function for the reduced row echelon form of a dense matrix modulo
`q`: reduced echelon form with unit pivots, same row space, entries less than `q` in absolute value -/
def RrefOk (q : ℕ) [Fact q.Prime] (rref : Mat.M → Mat.Ech) : Prop :=
  ∀ m, (∀ r ∈ m.rows, r.length = m.nc) →
    Mat.IsRREF (ZMod q) m.nc 1 (rref m).m.rows (rref m).pc ∧
    Mat.rowSpan (ZMod q) m.nc (rref m).m.rows = Mat.rowSpan (ZMod q) m.nc m.rows ∧
    ∀ r ∈ (rref m).m.rows, r.length = m.nc ∧ ∀ x ∈ r, |x| < (q : ℤ)

/-- the state when elimination is complete -/
structure Final (t : T) (q : ℕ) (Ker : (ℕ → ZMod q) → Prop) (s : St) : Prop where
  core : Core t q Ker s
  rest : ∀ r, r ∉ s.elimRow → rowOf s.rows r = []

/-! ### dense rows -/

theorem takeWhile_append_of {a b : List ℕ} {d : ℕ} (ha : ∀ x ∈ a, x < d) :
    (a ++ d :: b).takeWhile (fun x => decide (x < d)) = a := by
  induction a with
  | nil => simp
  | cons y a ih =>
    rw [List.cons_append, List.takeWhile_cons_of_pos (by simpa using ha y (by simp)), ih (fun x hx => ha x (by simp [hx]))]

theorem denseRow_aux {t : T} {nco : ℕ} {rc : List ℕ} (hrc : rc.Pairwise (· < ·)) : ∀ (l : Row) (u w : List ℕ) (v : List ℤ),
    RowOk t q nco l → rc = u ++ w → v.length = rc.length → (∀ d ∈ keys l, d ∈ w) →
    ∃ j v', l.foldlM (denseStep rc) (u.length, v) = some (j, v') ∧ v'.length = rc.length ∧
      ∀ i < rc.length, ((v'.getD i 0 : ℤ) : ZMod q) =
        if rc.getD i 0 ∈ keys l then coef q l (rc.getD i 0) else ((v.getD i 0 : ℤ) : ZMod q) := by
  intro l
  induction l with
  | nil => intro u w v _ _ hv _; exact ⟨u.length, v, rfl, hv, by simp⟩
  | cons e l ih =>
    intro u w v hok hu hv hk
    obtain ⟨a, b, rfl⟩ := List.append_of_mem (hk e.1 (by simp))
    have hrc' := hrc
    rw [hu, ← List.append_assoc] at hrc'
    obtain ⟨g1, g2, _⟩ := pairwise_append_lt hrc'
    have hstep : denseStep rc (u.length, v) e = some ((u ++ a).length, v.set (u ++ a).length e.2) := by
      unfold denseStep
      dsimp only
      rw [hu, List.drop_left, takeWhile_append_of (fun x hx => g1 x (by simp [hx])), if_pos (by simp)]
      simp
    have hd : ∀ d ∈ keys l, d ∈ e.1 :: b := by
      intro d hd
      have h1 := hok.lt d hd
      rcases List.mem_append.1 (hk d (by simp [hd])) with h | h
      · have := g1 d (by simp [h]); omega
      · exact h
    obtain ⟨j, v', k1, k2, k3⟩ := ih (u ++ a) (e.1 :: b) (v.set (u ++ a).length e.2) hok.tail (by rw [hu, List.append_assoc])
      (by simpa using hv) hd
    refine ⟨j, v', by rw [List.foldlM_cons, hstep]; exact k1, k2, fun i hi => ?_⟩
    rw [k3 i hi]
    have hn : e.1 ∉ keys l := fun h => lt_irrefl _ (hok.lt _ h)
    have hj : rc.getD (u ++ a).length 0 = e.1 := by
      rw [hu, ← List.append_assoc, List.getD_append_right _ _ _ _ le_rfl]
      simp
    have hcoef : coef q (e :: l) (rc.getD i 0) = (if e.1 = rc.getD i 0 then (e.2 : ZMod q) else 0) + coef q l (rc.getD i 0) := by
      unfold coef
      rw [dot_cons]
      congr 1
      split_ifs <;> simp
    by_cases hij : i = (u ++ a).length
    · subst hij
      have hlt : (u ++ a).length < v.length := by rw [hv]; exact hi
      rw [hj] at hcoef ⊢
      rw [if_neg hn, if_pos (by simp), hcoef, if_pos rfl, coef_of_notMem hn, add_zero, List.getD_eq_getElem?_getD,
        List.getElem?_set_self hlt]
      rfl
    · have hne : e.1 ≠ rc.getD i 0 := by
        intro h
        rw [← hj] at h
        have hnd : rc.Nodup := hrc.imp (fun h => h.ne)
        have hl2 : (u ++ a).length < rc.length := by rw [hu]; simp
        rw [List.getD_eq_getElem _ _ hl2, List.getD_eq_getElem _ _ hi] at h
        exact hij ((hnd.getElem_inj_iff.1 h).symm)
      have hiff : (rc.getD i 0 ∈ keys (e :: l)) ↔ rc.getD i 0 ∈ keys l := by
        simp only [keys_cons, List.mem_cons]
        constructor
        · rintro (h | h)
          · exact absurd h.symm hne
          · exact h
        · exact Or.inr
      have hset : (v.set (u ++ a).length e.2).getD i 0 = v.getD i 0 := by
        rw [List.getD_eq_getElem?_getD, List.getElem?_set_ne (Ne.symm hij), List.getD_eq_getElem?_getD]
      rw [hset, hcoef, if_neg hne, zero_add]
      simp only [hiff]

theorem denseRow_spec {t : T} {nco : ℕ} {rc : List ℕ} (hrc : rc.Pairwise (· < ·)) {l : Row} (hok : RowOk t q nco l)
    (hk : ∀ d ∈ keys l, d ∈ rc) :
    ∃ v, denseRow rc l = some v ∧ v.length = rc.length ∧
      ∀ i < rc.length, ((v.getD i 0 : ℤ) : ZMod q) = coef q l (rc.getD i 0) := by
  obtain ⟨j, v', k1, k2, k3⟩ := denseRow_aux (q := q) hrc l [] rc (List.replicate rc.length 0) hok rfl (by simp) hk
  refine ⟨v', ?_, k2, fun i hi => ?_⟩
  · unfold denseRow
    simp only [List.length_nil] at k1
    rw [k1, Option.map_some]
  · rw [k3 i hi]
    split_ifs with h
    · rfl
    · rw [coef_of_notMem h, List.getD_eq_getElem _ _ (by simpa using hi)]
      simp

theorem dot_eq_sum {rc : List ℕ} (hrc : rc.Nodup) : ∀ (l : Row) (x : ℕ → ZMod q), (∀ d ∈ keys l, d ∈ rc) →
    dot q l x = ∑ j : Fin rc.length, coef q l (rc.getD j 0) * x (rc.getD j 0) := by
  intro l
  induction l with
  | nil => intro x _; simp [coef]
  | cons e l ih =>
    intro x hk
    have hcoef : ∀ c, coef q (e :: l) c = (if e.1 = c then (e.2 : ZMod q) else 0) + coef q l c := by
      intro c
      unfold coef
      rw [dot_cons]
      congr 1
      split_ifs <;> simp
    rw [dot_cons, ih x (fun d hd => hk d (by simp [hd]))]
    simp only [hcoef, add_mul, Finset.sum_add_distrib]
    congr 1
    obtain ⟨i, hi, hie⟩ := List.getElem_of_mem (hk e.1 (by simp))
    rw [Finset.sum_eq_single (⟨i, hi⟩ : Fin rc.length)]
    · simp only [List.getD_eq_getElem _ _ hi, hie, if_true]
    · intro j _ hj
      rw [if_neg, zero_mul]
      intro h
      rw [List.getD_eq_getElem _ _ j.2, ← hie] at h
      exact hj (Fin.ext ((hrc.getElem_inj_iff.1 h).symm))
    · intro h
      exact absurd (Finset.mem_univ _) h

theorem sparseRow_dot : ∀ (rc : List ℕ) (v : List ℤ) (x : ℕ → ZMod q), v.length = rc.length →
    dot q (sparseRow rc v) x = ∑ j : Fin rc.length, ((v.getD j 0 : ℤ) : ZMod q) * x (rc.getD j 0) := by
  intro rc
  induction rc with
  | nil => intro v x _; simp [sparseRow]
  | cons c rc ih =>
    intro v x hv
    cases v with
    | nil => simp at hv
    | cons a v =>
      have h1 := ih v x (by simpa using hv)
      have h2 : dot q (sparseRow (c :: rc) (a :: v)) x = (a : ZMod q) * x c + dot q (sparseRow rc v) x := by
        unfold sparseRow
        rw [List.zip_cons_cons]
        by_cases ha : a = 0
        · rw [List.filter_cons_of_neg (by simp [ha]), ha]
          simp
        · rw [List.filter_cons_of_pos (by simp [ha]), dot_cons]
      rw [h2, h1]
      change _ = ∑ j : Fin (rc.length + 1), _
      rw [Fin.sum_univ_succ]
      simp

theorem sparseRow_coef {rc : List ℕ} (hrc : rc.Nodup) {v : List ℤ} (hv : v.length = rc.length) {j : ℕ} (hj : j < rc.length) :
    coef q (sparseRow rc v) (rc.getD j 0) = ((v.getD j 0 : ℤ) : ZMod q) := by
  unfold coef
  rw [sparseRow_dot rc v _ hv, Finset.sum_eq_single (⟨j, hj⟩ : Fin rc.length)]
  · simp
  · intro i _ hi
    rw [if_neg, mul_zero]
    intro h
    rw [List.getD_eq_getElem _ _ i.2, List.getD_eq_getElem _ _ hj] at h
    exact hi (Fin.ext (hrc.getElem_inj_iff.1 h))
  · intro h
    exact absurd (Finset.mem_univ _) h

theorem sparseRow_sub {rc : List ℕ} {v : List ℤ} (hv : v.length = rc.length) : (keys (sparseRow rc v)).Sublist rc := by
  have h1 : (keys (sparseRow rc v)).Sublist ((rc.zip v).map (·.1)) := (List.filter_sublist (l := rc.zip v)).map _
  rwa [show (rc.zip v).map (·.1) = rc from List.map_fst_zip (by omega)] at h1

theorem cast_ne_zero {x : ℤ} (hx : x ≠ 0) (hb : |x| < (q : ℤ)) : (x : ZMod q) ≠ 0 := by
  intro h
  rw [ZMod.intCast_zmod_eq_zero_iff_dvd] at h
  exact hx (Int.eq_zero_of_abs_lt_dvd h hb)

theorem sparseRow_ok {t : T} {nco : ℕ} {rc : List ℕ} (hrc : rc.Pairwise (· < ·)) (hr : ∀ c ∈ rc, 1 ≤ c ∧ c ≤ nco) {v : List ℤ}
    (hv : v.length = rc.length) (hb : ∀ x ∈ v, |x| < (q : ℤ)) : RowOk t q nco (sparseRow rc v) := by
  have hs := sparseRow_sub hv
  have hm : ∀ e ∈ sparseRow rc v, e.2 ∈ v ∧ e.2 ≠ 0 := by
    intro e he
    obtain ⟨h1, h2⟩ := List.mem_filter.1 he
    exact ⟨(List.of_mem_zip (a := e.1) (b := e.2) h1).2, by simpa using h2⟩
  exact ⟨hrc.sublist hs, fun c hc => hr c (hs.subset hc), fun e he => cast_ne_zero (hm e he).2 (hb _ (hm e he).1),
    fun e he _ => hb _ (hm e he).1⟩

/-! ### replacing rows and eliminating them -/

theorem setRows_spec : ∀ (rr : List ℕ) (new rows : List Row), rr.Nodup → (∀ r ∈ rr, r < rows.length) → new.length = rr.length →
    (setRows rr new rows).length = rows.length ∧ (∀ r, r ∉ rr → rowOf (setRows rr new rows) r = rowOf rows r) ∧
      ∀ i < rr.length, rowOf (setRows rr new rows) (rr.getD i 0) = new.getD i [] := by
  intro rr
  induction rr with
  | nil => intro new rows _ _ _; exact ⟨by cases new <;> rfl, by cases new <;> simp [setRows], by simp⟩
  | cons r0 rr ih =>
    intro new rows hnd hlt hlen
    cases new with
    | nil => simp at hlen
    | cons l new =>
      rw [List.nodup_cons] at hnd
      have h0 := hlt r0 (by simp)
      obtain ⟨k1, k2, k3⟩ := ih new (rows.set r0 l) hnd.2 (fun r hr => by simpa using hlt r (by simp [hr])) (by simpa using hlen)
      rw [setRows]
      refine ⟨by simpa using k1, fun r hr => ?_, fun i hi => ?_⟩
      · simp only [List.mem_cons, not_or] at hr
        rw [k2 r hr.2, rowOf_set h0, if_neg hr.1]
      · cases i with
        | zero =>
          simp only [List.getD_cons_zero]
          rw [k2 r0 hnd.1, rowOf_set h0, if_pos rfl]
        | succ i =>
          simp only [List.getD_cons_succ]
          exact k3 i (by simpa using hi)

/-- a pivot whose column is in no other row -/
theorem Core.single {t : T} {Ker : (ℕ → ZMod q) → Prop} {s : St} (h : Core t q Ker s) {row c : ℕ} (hrow : row ∉ s.elimRow)
    (hone : coef q (rowOf s.rows row) (c + 1) = 1) (hoth : ∀ r, r ∉ s.elimRow → r ≠ row → c + 1 ∉ keys (rowOf s.rows r))
    (col : List OL) : Core t q Ker { s with
      elimCol := s.elimCol.set c (some row)
      position := s.position.set row (some (c + 1))
      elimRow := s.elimRow ++ [row]
      column := col } := by
  have hk : c + 1 ∈ keys (rowOf s.rows row) := by
    rw [← coef_ne_zero_iff (h.rowOk row), hone]
    exact one_ne_zero
  have hrm := lt_of_mem_keys hk
  have hrp : row < s.position.length := by rw [h.npos]; exact hrm
  have hcn : c < s.elimCol.length := by rw [h.ncol]; have := ((h.rowOk row).range _ hk).2; omega
  refine h.pivot (row := row) (c := c) (u := 1) hrow hk ⟨rfl, rfl⟩ (by simp) (by simp) h.rowOk one_ne_zero (by simp) hone
    (fun _ _ => rfl) (fun r hr hne => ⟨hoth r hr hne, 0, by simp⟩) rfl ?_ ?_ ?_
  · intro r hr
    dsimp only
    rw [at_set hrp, if_neg]
    exact fun e => hrow (e ▸ hr)
  · dsimp only
    rw [at_set hrp, if_pos rfl]
  · intro d
    dsimp only
    rw [at_set hcn]

theorem elimDense_spec {t : T} {Ker : (ℕ → ZMod q) → Prop} : ∀ (rs cs : List ℕ) (s : St), Core t q Ker s →
    s.column.length = s.nco → rs.Nodup → (∀ r ∈ rs, r ∉ s.elimRow) → cs.length ≤ rs.length →
    (∀ i < cs.length, coef q (rowOf s.rows (rs.getD i 0)) (cs.getD i 0) = 1 ∧
      ∀ r, r ∉ s.elimRow → r ≠ rs.getD i 0 → cs.getD i 0 ∉ keys (rowOf s.rows r)) →
    ∃ s', elimDense rs cs s = some s' ∧ Core t q Ker s' ∧ s'.rows = s.rows ∧ s'.nco = s.nco ∧
      s'.elimRow = s.elimRow ++ rs.take cs.length := by
  intro rs
  induction rs with
  | nil =>
    intro cs s h hcl _ _ hlen _
    cases cs with
    | nil => exact ⟨s, rfl, h, rfl, rfl, by simp⟩
    | cons c cs => simp at hlen
  | cons r0 rs ih =>
    intro cs s h hcl hnd hact hlen hpiv
    cases cs with
    | nil => exact ⟨s, by simp [elimDense], h, rfl, rfl, by simp⟩
    | cons d cs =>
      rw [List.nodup_cons] at hnd
      have h0 := hact r0 (by simp)
      obtain ⟨hone, hoth⟩ := hpiv 0 (by simp)
      simp only [List.getD_cons_zero] at hone hoth
      have hk : d ∈ keys (rowOf s.rows r0) := by
        rw [← coef_ne_zero_iff (h.rowOk r0), hone]
        exact one_ne_zero
      have hrm := lt_of_mem_keys hk
      have hdr := (h.rowOk r0).range d hk
      obtain ⟨c, rfl⟩ : ∃ c, d = c + 1 := ⟨d - 1, by omega⟩
      have hcn : c < s.nco := by omega
      rw [elimDense, elim_spec (by rw [h.ncol]; exact hcn) (by rw [h.npos]; exact hrm) (h.rank_lt h0 hrm) (by rw [hcl]; exact hcn),
        Option.bind_some]
      obtain ⟨s', k1, k2, k3, k4, k5⟩ := ih cs _ (h.single h0 hone hoth (s.column.set c (OL.new 0))) (by simpa using hcl) hnd.2
        (fun r hr => by
          simp only [List.mem_append, List.mem_singleton, not_or]
          exact ⟨hact r (by simp [hr]), fun e => hnd.1 (e ▸ hr)⟩) (by simpa using hlen)
        (fun i hi => by
          obtain ⟨g1, g2⟩ := hpiv (i + 1) (by simpa using hi)
          simp only [List.getD_cons_succ] at g1 g2
          refine ⟨g1, fun r hr hne => g2 r (fun h => hr ?_) hne⟩
          simp [h])
      refine ⟨s', k1, k2, k3, k4, ?_⟩
      rw [k5]
      simp

/-! ### the dense step -/

theorem colNum_pos {t : T} {Ker : (ℕ → ZMod q) → Prop} {c0 : Option ℕ} {s : St} (h : Inv t q Ker c0 s) {r c : ℕ} (hr : r ∉ s.elimRow)
    (hc : c + 1 ∈ keys (rowOf s.rows r)) : 0 < colNum s c := by
  have hcn : c < s.nco := by have := ((h.core.rowOk r).range _ hc).2; omega
  obtain ⟨ol, S, g1, g2, g3⟩ := h.cols.col c hcn
  unfold colNum
  rw [g1]
  simp only [Option.map_some, Option.getD_some]
  rw [g2.2.1]
  exact List.length_pos_of_mem ((g3 r).2 ⟨hr, hc⟩)

theorem colNum_row {t : T} {Ker : (ℕ → ZMod q) → Prop} {c0 : Option ℕ} {s : St} (h : Inv t q Ker c0 s) {c : ℕ}
    (hc : 0 < colNum s c) : ∃ r, r ∉ s.elimRow ∧ c + 1 ∈ keys (rowOf s.rows r) := by
  unfold colNum at hc
  cases hcol : s.column[c]? with
  | none => rw [hcol] at hc; simp at hc
  | some ol =>
    have hcn : c < s.nco := by rw [← h.cols.len]; exact (List.getElem?_eq_some_iff.1 hcol).1
    obtain ⟨ol', S, g1, g2, g3⟩ := h.cols.col c hcn
    rw [hcol] at hc g1
    simp only [Option.some.injEq] at g1
    subst g1
    simp only [Option.map_some, Option.getD_some] at hc
    rw [g2.2.1] at hc
    obtain ⟨r, hr⟩ := List.exists_mem_of_length_pos hc
    exact ⟨r, (g3 r).1 hr⟩

theorem mapM_some {α β : Type} {f : α → Option β} (P : α → β → Prop) : ∀ (l : List α), (∀ a ∈ l, ∃ b, f a = some b ∧ P a b) →
    ∃ l', l.mapM f = some l' ∧ List.Forall₂ P l l' := by
  intro l
  induction l with
  | nil => intro _; exact ⟨[], rfl, List.Forall₂.nil⟩
  | cons a l ih =>
    intro h
    obtain ⟨b, h1, h2⟩ := h a (by simp)
    obtain ⟨l', h3, h4⟩ := ih (fun a ha => h a (by simp [ha]))
    exact ⟨b :: l', by rw [List.mapM_cons, h1, h3]; rfl, List.Forall₂.cons h2 h4⟩

theorem forall₂_getD {α β : Type} {P : α → β → Prop} {l : List α} {l' : List β} (h : List.Forall₂ P l l') {d : α} {d' : β} :
    l.length = l'.length ∧ ∀ i < l.length, P (l.getD i d) (l'.getD i d') := by
  induction h with
  | nil => simp
  | cons h _ ih =>
    refine ⟨by simp [ih.1], fun i hi => ?_⟩
    cases i with
    | zero => simpa using h
    | succ i => simpa using ih.2 i (by simpa using hi)

theorem getD_mem {α : Type} {l : List α} {i : ℕ} (h : i < l.length) (d : α) : l.getD i d ∈ l := by
  rw [List.getD_eq_getElem _ _ h]
  exact List.getElem_mem h

set_option maxHeartbeats 800000 in
theorem denseMain_spec {t : T} {Ker : (ℕ → ZMod q) → Prop} {s : St} {rref : Mat.M → Mat.Ech} (hR : RrefOk q rref)
    (h : Inv t q Ker none s) :
    ∃ s', denseMain rref s (activeRows s) (activeCols s) = some s' ∧ Final t q Ker s' ∧ Same s s' := by
  obtain ⟨rr, hrr⟩ : ∃ rr, rr = activeRows s := ⟨_, rfl⟩
  obtain ⟨rc, hrc⟩ : ∃ rc, rc = activeCols s := ⟨_, rfl⟩
  rw [← hrr, ← hrc]
  have hcore := h.core
  -- the active rows and columns
  have hrrm : ∀ r, r ∈ rr ↔ r ∉ s.elimRow ∧ rowOf s.rows r ≠ [] := by
    intro r
    rw [hrr]
    unfold activeRows
    simp only [List.mem_filter, List.mem_range, decide_eq_true_eq]
    constructor
    · rintro ⟨_, h2, h3⟩
      exact ⟨hcore.active h3, h2⟩
    · rintro ⟨h1, h2⟩
      refine ⟨?_, h2, ?_⟩
      · by_contra hlt
        apply h2
        rw [rowOf, List.getElem?_eq_none (by omega)]
        rfl
      · rcases h.actPos r h1 with g | ⟨_, g⟩
        · exact g
        · exact absurd g h2
  have hrrn : rr.Nodup := by rw [hrr]; exact List.nodup_range.filter _
  have hrrl : ∀ r ∈ rr, r < s.rows.length := by
    intro r hr
    rw [hrr] at hr
    exact List.mem_range.1 (List.mem_filter.1 hr).1
  have hrcm : ∀ d, d ∈ rc ↔ ∃ r, r ∉ s.elimRow ∧ d ∈ keys (rowOf s.rows r) := by
    intro d
    rw [hrc]
    unfold activeCols
    simp only [List.mem_map, List.mem_filter, List.mem_range, decide_eq_true_eq]
    constructor
    · rintro ⟨c, ⟨_, h2⟩, rfl⟩
      exact colNum_row h h2
    · rintro ⟨r, h1, h2⟩
      have := (hcore.rowOk r).range d h2
      refine ⟨d - 1, ⟨by omega, colNum_pos h h1 ?_⟩, by omega⟩
      rwa [show d - 1 + 1 = d by omega]
  have hrcs : rc.Pairwise (· < ·) := by
    rw [hrc]
    unfold activeCols
    rw [List.pairwise_map]
    exact (List.pairwise_lt_range.filter _).imp (by intro a b h; omega)
  have hrcn : rc.Nodup := hrcs.imp (fun h => h.ne)
  have hrcr : ∀ c ∈ rc, 1 ≤ c ∧ c ≤ s.nco := by
    intro c hc
    obtain ⟨r, _, h2⟩ := (hrcm c).1 hc
    exact (hcore.rowOk r).range c h2
  have hkrc : ∀ r ∈ rr, ∀ d ∈ keys (rowOf s.rows r), d ∈ rc := fun r hr d hd => (hrcm d).2 ⟨r, ((hrrm r).1 hr).1, hd⟩
  -- the dense matrix
  obtain ⟨d, hd1, hd2⟩ := mapM_some (f := fun r => (s.rows[r]?).bind (denseRow rc)) (fun r v => v.length = rc.length ∧
      ∀ i < rc.length, ((v.getD i 0 : ℤ) : ZMod q) = coef q (rowOf s.rows r) (rc.getD i 0)) rr (fun r hr => by
    obtain ⟨v, k1, k2, k3⟩ := denseRow_spec (q := q) hrcs (hcore.rowOk r) (hkrc r hr)
    exact ⟨v, by rw [rowOf_get (hrrl r hr), Option.bind_some, k1], k2, k3⟩)
  have hdr := forall₂_getD hd2 (d := 0) (d' := [])
  unfold denseMain
  rw [hd1]
  simp only []
  obtain ⟨e, he⟩ : ∃ e, e = rref ⟨rc.length, d⟩ := ⟨_, rfl⟩
  rw [← he]
  have hmemd : ∀ v ∈ d, ∃ i < rr.length, v = d.getD i [] := by
    intro v hv
    obtain ⟨i, hi, rfl⟩ := List.getElem_of_mem hv
    exact ⟨i, by rw [hdr.1]; exact hi, by rw [List.getD_eq_getElem _ _ hi]⟩
  obtain ⟨hE, hspan, hent⟩ := hR ⟨rc.length, d⟩ (by
    intro v hv
    obtain ⟨i, hi, rfl⟩ := hmemd v hv
    exact (hdr.2 i hi).1)
  rw [← he] at hE hspan hent
  dsimp only at hE hspan hent
  -- the pivotal columns
  obtain ⟨pcs, hp1, hp2⟩ := mapM_some (f := fun j => rc[j]?) (fun j c => c = rc.getD j 0) e.pc (fun j hj => by
    have := hE.lt j hj
    exact ⟨rc.getD j 0, by rw [List.getElem?_eq_getElem this, List.getD_eq_getElem _ _ this], rfl⟩)
  have hpr := forall₂_getD hp2 (d := 0) (d' := 0)
  rw [hp1]
  simp only []
  have hle : e.m.rows.length ≤ rr.length := by
    rw [hE.len, ← hE.finrank one_ne_zero, hspan, hdr.1]
    have hset : {v | ∃ r ∈ d, v = Mat.vecF (ZMod q) rc.length r} = ((d.map (Mat.vecF (ZMod q) rc.length)).toFinset : Set _) := by
      ext v
      simp only [List.coe_toFinset, List.mem_map, Set.mem_ofPred_eq]
      constructor
      · rintro ⟨r, h1, h2⟩; exact ⟨r, h1, h2.symm⟩
      · rintro ⟨r, h1, h2⟩; exact ⟨r, h1, h2.symm⟩
    unfold Mat.rowSpan
    rw [hset]
    refine (finrank_span_finset_le_card _).trans ((List.toFinset_card_le _).trans ?_)
    simp
  rw [if_neg (by omega)]
  obtain ⟨new, hnew⟩ : ∃ new, new = e.m.rows.map (sparseRow rc) ++ List.replicate (rr.length - e.m.rows.length) [] := ⟨_, rfl⟩
  rw [← hnew]
  have hnewl : new.length = rr.length := by
    rw [hnew]
    simp
    omega
  have hnew1 : ∀ i < e.m.rows.length, new.getD i [] = sparseRow rc (e.m.rows.getD i []) := by
    intro i hi
    rw [hnew, List.getD_append _ _ _ _ (by simpa using hi), List.getD_eq_getElem _ _ (by simpa using hi), List.getElem_map,
      List.getD_eq_getElem _ _ hi]
  have hnew2 : ∀ i, e.m.rows.length ≤ i → new.getD i [] = [] := by
    intro i hi
    rw [hnew, List.getD_append_right _ _ _ _ (by simpa using hi)]
    simp only [List.length_map, List.getD_eq_getElem?_getD, List.getElem?_replicate]
    split_ifs <;> rfl
  obtain ⟨hs1, hs2, hs3⟩ := setRows_spec rr new s.rows hrrn hrrl hnewl
  obtain ⟨rows', hrows'⟩ : ∃ rows', rows' = setRows rr new s.rows := ⟨_, rfl⟩
  rw [← hrows'] at hs1 hs2 hs3 ⊢
  have hidx : ∀ r ∈ rr, ∃ i < rr.length, r = rr.getD i 0 := by
    intro r hr
    obtain ⟨i, hi, rfl⟩ := List.getElem_of_mem hr
    exact ⟨i, hi, by rw [List.getD_eq_getElem _ _ hi]⟩
  have hrowe : ∀ i < e.m.rows.length, (e.m.rows.getD i []).length = rc.length ∧ ∀ x ∈ e.m.rows.getD i [], |x| < (q : ℤ) :=
    fun i hi => hent _ (getD_mem hi _)
  -- rows of the new state
  have hnewok : ∀ i, RowOk t q s.nco (new.getD i []) := by
    intro i
    by_cases hi : i < e.m.rows.length
    · rw [hnew1 i hi]
      exact sparseRow_ok hrcs hrcr (hrowe i hi).1 (hrowe i hi).2
    · rw [hnew2 i (by omega)]
      exact ⟨by simp, by simp, by simp, by simp⟩
  have hnewk : ∀ i, ∀ c ∈ keys (new.getD i []), c ∈ rc := by
    intro i c hc
    by_cases hi : i < e.m.rows.length
    · rw [hnew1 i hi] at hc
      exact (sparseRow_sub (hrowe i hi).1).subset hc
    · rw [hnew2 i (by omega)] at hc
      simp at hc
  have hok' : ∀ r, RowOk t q s.nco (rowOf rows' r) := by
    intro r
    by_cases hr : r ∈ rr
    · obtain ⟨i, hi, rfl⟩ := hidx r hr
      rw [hs3 i hi]
      exact hnewok i
    · rw [hs2 r hr]
      exact hcore.rowOk r
  have hker : ∀ x : ℕ → ZMod q, (∀ r ∈ rr, dot q (rowOf rows' r) x = 0) ↔ ∀ r ∈ rr, dot q (rowOf s.rows r) x = 0 := by
    intro x
    have e1 : (∀ r ∈ rr, dot q (rowOf s.rows r) x = 0) ↔ Mat.IsNull (ZMod q) rc.length d fun j => x (rc.getD j 0) := by
      constructor
      · intro h1 v hv
        obtain ⟨i, hi, rfl⟩ := hmemd v hv
        have h2 := h1 _ (getD_mem hi 0)
        rw [dot_eq_sum hrcn _ x (hkrc _ (getD_mem hi 0))] at h2
        rw [← h2]
        apply Finset.sum_congr rfl
        intro j _
        unfold Mat.ent
        rw [(hdr.2 i hi).2 j j.2]
      · intro h1 r hr
        obtain ⟨i, hi, rfl⟩ := hidx r hr
        rw [dot_eq_sum hrcn _ x (hkrc _ hr)]
        rw [← h1 (d.getD i []) (getD_mem (by rw [← hdr.1]; exact hi) _)]
        apply Finset.sum_congr rfl
        intro j _
        unfold Mat.ent
        rw [(hdr.2 i hi).2 j j.2]
    have e2 : (∀ r ∈ rr, dot q (rowOf rows' r) x = 0) ↔ Mat.IsNull (ZMod q) rc.length e.m.rows fun j => x (rc.getD j 0) := by
      constructor
      · intro h1 v hv
        obtain ⟨i, hi, rfl⟩ := List.getElem_of_mem hv
        have h2 := h1 _ (getD_mem (l := rr) (i := i) (by omega) 0)
        rw [hs3 i (by omega), hnew1 i hi, sparseRow_dot _ _ _ (hrowe i hi).1, List.getD_eq_getElem _ _ hi] at h2
        exact h2
      · intro h1 r hr
        obtain ⟨i, hi, rfl⟩ := hidx r hr
        rw [hs3 i hi]
        by_cases hi2 : i < e.m.rows.length
        · rw [hnew1 i hi2, sparseRow_dot _ _ _ (hrowe i hi2).1]
          exact h1 _ (getD_mem hi2 _)
        · rw [hnew2 i (by omega)]
          rfl
    rw [e1, e2]
    exact Mat.isNull_congr hspan _
  have hcore' : Core t q Ker { s with rows := rows' } := by
    refine ⟨by dsimp only; rw [hs1]; exact hcore.npos, hcore.ncol, hok', fun x => ?_, hcore.nodup, fun r hr => ?_, hcore.ecol, ?_, ?_⟩
    · dsimp only
      rw [← hcore.ker x]
      have h1 := hker x
      constructor
      · intro h2 r
        by_cases hr : r ∈ rr
        · exact h1.1 (fun r _ => h2 r) r hr
        · rw [← hs2 r hr]; exact h2 r
      · intro h2 r
        by_cases hr : r ∈ rr
        · exact h1.2 (fun r _ => h2 r) r hr
        · rw [hs2 r hr]; exact h2 r
    · dsimp only
      rw [hs1, hs2 r (fun h => ((hrrm r).1 h).1 hr)]
      exact hcore.piv r hr
    · refine hcore.tri.imp_of_mem fun {r1 r2} h1 h2 h3 c hc => ?_
      dsimp only
      rw [hs2 r2 (fun h => ((hrrm r2).1 h).1 h2)]
      exact h3 c hc
    · intro r hr r' hr' c hc
      dsimp only at hc ⊢
      by_cases hrm : r' ∈ rr
      · obtain ⟨i, hi, rfl⟩ := hidx r' hrm
        rw [hs3 i hi]
        intro hk
        obtain ⟨r2, g1, g2⟩ := (hrcm _).1 (hnewk i _ hk)
        exact hcore.act r hr r2 g1 c hc g2
      · rw [hs2 r' hrm]
        exact hcore.act r hr r' hr' c hc
  have hpl : pcs.length = e.m.rows.length := by rw [hE.len, hpr.1]
  obtain ⟨s', k1, k2, k3, k4, k5⟩ := elimDense_spec rr pcs { s with rows := rows' } hcore' h.cols.len hrrn
    (fun r hr => ((hrrm r).1 hr).1) (by omega) (fun i hi => by
      have hi' : i < e.pc.length := by rw [hpr.1]; exact hi
      have hi2 : i < e.m.rows.length := by rw [← hpl]; exact hi
      have hjlt : ∀ k < e.pc.length, e.pc.getD k 0 < rc.length := fun k hk => hE.lt _ (getD_mem hk _)
      have hcoefs : ∀ k < e.m.rows.length, coef q (rowOf rows' (rr.getD k 0)) (pcs.getD i 0) = if k = i then 1 else 0 := by
        intro k hk
        rw [hs3 k (by omega), hnew1 k hk, hpr.2 i hi', sparseRow_coef hrcn (hrowe k hk).1 (hjlt i hi')]
        have := hE.piv k i (by rw [← hE.len]; exact hk) hi'
        unfold Mat.ent at this
        exact this
      refine ⟨by have := hcoefs i hi2; rwa [if_pos rfl] at this, fun r hr hne hk => ?_⟩
      dsimp only at hr hk
      by_cases hrm : r ∈ rr
      · obtain ⟨k, hk', rfl⟩ := hidx r hrm
        by_cases hk2 : k < e.m.rows.length
        · have h1 := hcoefs k hk2
          rw [if_neg (fun e => hne (by rw [e]))] at h1
          exact (coef_ne_zero_iff (hok' _) _).2 hk h1
        · rw [hs3 k hk', hnew2 k (by omega)] at hk
          simp at hk
      · have h1 : rowOf s.rows r = [] := by
          by_contra h1
          exact hrm ((hrrm r).2 ⟨hr, h1⟩)
        rw [hs2 r hrm, h1] at hk
        simp at hk)
  refine ⟨s', k1, ⟨k2, fun r hr => ?_⟩, ⟨k4, by rw [k3]; exact hs1⟩⟩
  rw [k3]
  dsimp only
  rw [k5] at hr
  simp only [List.mem_append, not_or] at hr
  by_cases hrm : r ∈ rr
  · obtain ⟨k, hk', rfl⟩ := hidx r hrm
    by_cases hk2 : k < e.m.rows.length
    · exfalso
      apply hr.2
      rw [List.mem_take_iff_getElem]
      refine ⟨k, by rw [hpl]; omega, ?_⟩
      rw [List.getD_eq_getElem _ _ hk']
    · rw [hs3 k hk', hnew2 k (by omega)]
  · rw [hs2 r hrm]
    by_contra h1
    exact hrm ((hrrm r).2 ⟨hr.1, h1⟩)

/-! ### standard elimination -/

theorem minFold_spec (s : St) : ∀ (l : List ℕ) (b : Option (ℕ × ℕ)), (∀ d w, b = some (d, w) → ∃ c, d = c + 1 ∧ 0 < colNum s c) →
    (l.foldl (minStep s) b = none → b = none ∧ ∀ c ∈ l, colNum s c = 0) ∧
      ∀ d w, l.foldl (minStep s) b = some (d, w) → ∃ c, d = c + 1 ∧ 0 < colNum s c := by
  intro l
  induction l with
  | nil => intro b hb; exact ⟨fun h => ⟨h, by simp⟩, hb⟩
  | cons c l ih =>
    intro b hb
    have hs : ∀ d w, minStep s b c = some (d, w) → ∃ c, d = c + 1 ∧ 0 < colNum s c := by
      intro d w h
      unfold minStep at h
      by_cases hc : 0 < colNum s c
      · rw [if_pos hc] at h
        cases b with
        | none =>
          simp only [Option.some.injEq, Prod.mk.injEq] at h
          exact ⟨c, h.1.symm, hc⟩
        | some p =>
          obtain ⟨d', w'⟩ := p
          simp only at h
          split_ifs at h
          · simp only [Option.some.injEq, Prod.mk.injEq] at h
            exact ⟨c, h.1.symm, hc⟩
          · exact hb d w h
      · rw [if_neg hc] at h
        exact hb d w h
    obtain ⟨k1, k2⟩ := ih (minStep s b c) hs
    rw [List.foldl_cons]
    refine ⟨fun h => ?_, k2⟩
    obtain ⟨g1, g2⟩ := k1 h
    unfold minStep at g1
    by_cases hc : 0 < colNum s c
    · rw [if_pos hc] at g1
      cases b with
      | none => simp at g1
      | some p =>
        obtain ⟨d', w'⟩ := p
        simp only at g1
        split_ifs at g1
    · rw [if_neg hc] at g1
      refine ⟨g1, fun c' hc' => ?_⟩
      rcases List.mem_cons.1 hc' with rfl | hc'
      · omega
      · exact g2 c' hc'

theorem minCol_spec (s : St) : (minCol s = none → ∀ c < s.nco, colNum s c = 0) ∧
    ∀ d, minCol s = some d → ∃ c, d = c + 1 ∧ 0 < colNum s c := by
  obtain ⟨h1, h2⟩ := minFold_spec s (List.range s.nco) none (by simp)
  unfold minCol
  constructor
  · intro h c hc
    rw [Option.map_eq_none_iff] at h
    exact (h1 h).2 c (List.mem_range.2 hc)
  · intro d h
    rw [Option.map_eq_some_iff] at h
    obtain ⟨⟨d', w⟩, g1, rfl⟩ := h
    exact h2 d' w g1

/-- what is assumed of the test of the density: a matrix without rows or columns is not dense
(`active_density` returns 0, smat_elim.cc:1151-1170) -/
def SparseOk (sparse : St → Bool) : Prop := ∀ s, activeRows s = [] ∨ activeCols s = [] → sparse s = true

theorem standard_spec (X : Marith.XGcd) {t : T} {Ker : (ℕ → ZMod q) → Prop} {sparse : St → Bool} (hsp : SparseOk sparse)
    {rref : Mat.M → Mat.Ech} (hR : RrefOk q rref) : ∀ (fuel : ℕ) (s : St), Inv t q Ker none s →
    s.rows.length - s.elimRow.length < fuel →
    ∃ s', standard X t q sparse rref fuel s = some s' ∧ Final t q Ker s' ∧ Same s s' := by
  intro fuel
  induction fuel with
  | zero => intro s _ h; omega
  | succ f ih =>
    intro s h hf
    rw [standard]
    by_cases hs : sparse s = true
    · rw [if_pos hs]
      obtain ⟨g1, g2⟩ := minCol_spec s
      cases hm : minCol s with
      | none =>
        refine ⟨s, rfl, ⟨h.core, fun r hr => ?_⟩, Same.refl s⟩
        by_contra hne
        obtain ⟨e, l, hl⟩ := List.exists_cons_of_ne_nil hne
        have hk : e.1 ∈ keys (rowOf s.rows r) := by rw [hl]; simp
        obtain ⟨r1, r2⟩ := (h.core.rowOk r).range _ hk
        have h1 := g1 hm (e.1 - 1) (by omega)
        have h2 := colNum_pos h hr (c := e.1 - 1) (by rwa [show e.1 - 1 + 1 = e.1 by omega])
        omega
      | some d =>
        obtain ⟨c, rfl, hc⟩ := g2 d hm
        simp only []
        obtain ⟨ol, hol, hnum⟩ : ∃ ol, s.column[c]? = some ol ∧ ol.num ≠ 0 := by
          unfold colNum at hc
          cases hcol : s.column[c]? with
          | none => rw [hcol] at hc; simp at hc
          | some ol => rw [hcol] at hc; exact ⟨ol, rfl, by simpa [Nat.pos_iff_ne_zero] using hc⟩
        obtain ⟨row, s1, m1, m2, m3, m4, m5⟩ := colNext_spec h hol hnum
        have hr1 : s1.rows = s.rows := by rw [m2]
        have he1 : s1.elimRow = s.elimRow := by rw [m2]
        have hn1 : s1.nco = s.nco := by rw [m2]
        obtain ⟨s', L', li', k1, k2, k3, k4, _⟩ := pivot_spec X ⟨false, false, 0⟩ (row := row) [] [] m5
          (by rw [he1]; exact m3) (by rw [hr1]; exact m4) (by simp)
        rw [m1]
        simp only []
        rw [k1]
        simp only []
        have hrk := h.core.rank_lt m3 (lt_of_mem_keys m4)
        obtain ⟨s'', p1, p2, p3⟩ := ih s' k2 (by rw [k3.2, hr1, k4, he1]; simp; omega)
        exact ⟨s'', p1, p2, Same.trans ⟨k3.1.trans hn1, k3.2.trans (by rw [hr1])⟩ p3⟩
    · rw [if_neg hs]
      have hne : ¬ (activeRows s).length * (activeCols s).length = 0 := by
        intro h0
        apply hs
        apply hsp
        rcases Nat.mul_eq_zero.1 h0 with h0 | h0
        · exact Or.inl (List.length_eq_zero_iff.1 h0)
        · exact Or.inr (List.length_eq_zero_iff.1 h0)
      rw [if_neg hne]
      exact denseMain_spec hR h

/-- all steps of the elimination -/
theorem sparseElimination_spec (X : Marith.XGcd) {t : T} {nco : ℕ} {rows : List Row} (hok : ∀ l ∈ rows, RowOk t q nco l)
    {sparse : St → Bool} (hsp : SparseOk sparse) {rref : Mat.M → Mat.Ech} (hR : RrefOk q rref) {fuel : ℕ}
    (hf : (rows.length + 1) * (rows.length + nco + 1) ≤ fuel) :
    ∃ s s', init nco rows = some s ∧ sparseElimination X t q sparse rref fuel s = some s' ∧ Final t q (InKer q rows) s' ∧
      s'.nco = nco ∧ s'.rows.length = rows.length := by
  obtain ⟨s, h1, h2, h3, h4, h5, h6⟩ := init_spec hok
  have hS : ∀ s', Same s s' → s'.rows.length = rows.length ∧ s'.nco = nco := fun s' hs => ⟨hs.2.trans (by rw [h5]), hs.1.trans h4⟩
  have hF : ∀ s', Same s s' → (s'.rows.length + 1) * (s'.rows.length + s'.nco + 1) ≤ fuel := by
    intro s' hs
    rw [(hS s' hs).1, (hS s' hs).2]
    exact hf
  obtain ⟨s0, a1, a2, a3, a4⟩ := step0_spec h2 h3 h6 (hF s (Same.refl s))
  obtain ⟨s1, b1, b2, b3, b4⟩ := step1_spec X a2 a4 (hF s0 a3)
  have e1 := a3.trans b3
  obtain ⟨s2, c1, c2, c3⟩ := step2_spec X b2 b4 (hF s1 e1)
  have e2 := e1.trans c3
  obtain ⟨s3, d1, d2, d3⟩ := step3_spec X c2 (hF s2 e2)
  have e3 := e2.trans d3
  have hlt : rows.length < fuel := by
    have : rows.length + 1 ≤ (rows.length + 1) * (rows.length + nco + 1) := Nat.le_mul_of_pos_right _ (by omega)
    omega
  obtain ⟨s4, f1, f2, f3⟩ := step4_spec X d2 (fuel := fuel) (by rw [(hS s3 e3).1]; exact hlt)
  have e4 := e3.trans f3
  obtain ⟨s5, g1, g2, g3⟩ := standard_spec X hsp hR fuel s4 f2 (by rw [(hS s4 e4).1]; omega)
  have e5 := e4.trans g3
  refine ⟨s, s5, h1, ?_, g2, (hS s5 e5).2, (hS s5 e5).1⟩
  unfold sparseElimination
  rw [a1, Option.bind_some, b1, Option.bind_some, c1, Option.bind_some, d1, Option.bind_some, f1, Option.bind_some, g1]

end Eclib.Elim
