import Verif.Pool.Model
import Mathlib.Tactic.Ring
import Mathlib.Data.List.Count

/-! # Theorems about the thread pool (C46) -/

namespace Eclib.Pool

/-- the thread is executing a job -/
def T.busy : T → Bool
  | .exec _ => true
  | _ => false

/-- the invariant of all executions up to the return of `close` -/
structure Inv (s : St) : Prop where
  cnt : ∀ j, s.posted.count j = s.completed.count j + s.queue.count j + s.thr.count (.exec j)
  out : s.outst = s.queue.length + s.thr.countP T.busy + s.work.toNat
  wk : s.work = true ↔ s.phase = .user
  st : s.stopped = true ↔ s.outst = 0
  dn : T.done ∈ s.thr → s.stopped = true
  hd : ∃ m ws, s.thr = m :: ws ∧ (m = .out ↔ s.phase = .user) ∧ T.out ∉ ws ∧
    (s.phase = .stopping → m = .done)
  cl : s.phase = .closed → ∀ t ∈ s.thr, t = .done

theorem Inv.init : Inv St.init := by
  refine ⟨?_, ?_, ?_, ?_, ?_, ⟨.out, [], ?_⟩, ?_⟩ <;> simp [St.init, T.busy]

/-- replacing a thread in the list keeps the head conditions -/
theorem hd_replace {l₁ l₂ : List T} {a b : T} {ph : Ph} (ha : a ≠ .out) (hb : b ≠ .out)
    (hab : ph = .stopping → a = .done → b = .done)
    (h : ∃ m ws, l₁ ++ a :: l₂ = m :: ws ∧ (m = .out ↔ ph = .user) ∧ T.out ∉ ws ∧
      (ph = .stopping → m = .done)) :
    ∃ m ws, l₁ ++ b :: l₂ = m :: ws ∧ (m = .out ↔ ph = .user) ∧ T.out ∉ ws ∧
      (ph = .stopping → m = .done) := by
  obtain ⟨m, ws, e, h1, h2, h3⟩ := h
  cases l₁ with
  | nil =>
    simp only [List.nil_append, List.cons.injEq] at e
    obtain ⟨rfl, rfl⟩ := e
    refine ⟨b, l₂, rfl, ?_, h2, fun h => hab h (h3 h)⟩
    rw [← h1]
    exact iff_of_false hb ha
  | cons c l₁ =>
    simp only [List.cons_append, List.cons.injEq] at e
    obtain ⟨rfl, rfl⟩ := e
    refine ⟨c, l₁ ++ b :: l₂, rfl, h1, ?_, h3⟩
    simp only [List.mem_append, List.mem_cons, not_or] at h2 ⊢
    exact ⟨h2.1, fun h => hb h.symm, h2.2.2⟩

theorem Inv.step {s t : St} (h : Inv s) (hs : Step s t) : Inv t := by
  obtain ⟨cnt, out, wk, st, dn, hd, cl⟩ := h
  cases hs with
  | start k hp =>
    refine ⟨?_, ?_, wk, st, ?_, ?_, ?_⟩
    · intro j
      simp [cnt j, List.count_replicate]
    · simp [out, List.countP_replicate, T.busy]
    · intro h
      apply dn
      simpa [List.mem_replicate] using h
    · obtain ⟨m, ws, e, h1, h2, h3⟩ := hd
      refine ⟨m, ws ++ List.replicate k .fresh, by simp [e], h1, ?_, h3⟩
      simp [h2, List.mem_replicate]
    · intro h
      simp [hp] at h
  | post j hp =>
    refine ⟨?_, ?_, wk, ?_, ?_, hd, cl⟩
    · intro i
      have := cnt i
      simp only [List.count_cons, List.count_append, List.count_nil]
      omega
    · simp only [List.length_append, List.length_cons, List.length_nil]
      omega
    · have h1 : s.work = true := wk.mpr hp
      rw [h1] at out
      simp only [Bool.toNat_true] at out
      have : s.stopped ≠ true := fun h => by have := st.mp h; omega
      exact iff_of_false this (by simp)
    · exact dn
  | reset ws hp ht =>
    have hw : s.work = true := wk.mpr hp
    rw [hw, ht] at out
    have hst : s.stopped = false := by
      cases hh : s.stopped with
      | false => rfl
      | true => have := st.mp hh; simp at out; omega
    refine ⟨?_, ?_, by simp, ?_, ?_, ?_, by simp⟩
    · intro j
      have := cnt j
      rw [ht] at this
      simpa using this
    · simp [T.busy, hw] at out ⊢
      omega
    · simp [hst, hw]
    · intro hm
      have : T.done ∈ s.thr := by
        rw [ht]
        simpa using hm
      have := dn this
      simp [this]
    · obtain ⟨m, ws', e, -, h2, -⟩ := hd
      rw [ht] at e
      simp only [List.cons.injEq] at e
      obtain ⟨rfl, rfl⟩ := e
      exact ⟨.fresh, ws, rfl, by simp, h2, by simp⟩
  | enterNone l₁ l₂ ht h0 =>
    have hcl : s.phase ≠ .closed := by
      intro h
      have := cl h .fresh (by simp [ht])
      simp at this
    refine ⟨?_, ?_, wk, by simp [h0], by simp, ?_, fun h => absurd h hcl⟩
    · intro j
      have := cnt j
      rw [ht] at this
      simpa [List.count_append, List.count_cons] using this
    · rw [ht] at out
      simpa [T.busy] using out
    · rw [ht] at hd
      exact hd_replace (by simp) (by simp) (by simp) hd
  | enter l₁ l₂ ht h0 =>
    have hcl : s.phase ≠ .closed := by
      intro h
      have := cl h .fresh (by simp [ht])
      simp at this
    refine ⟨?_, ?_, wk, st, ?_, ?_, fun h => absurd h hcl⟩
    · intro j
      have := cnt j
      rw [ht] at this
      simpa [List.count_append, List.count_cons] using this
    · rw [ht] at out
      simpa [T.busy] using out
    · intro h
      apply dn
      rw [ht]
      simpa using h
    · rw [ht] at hd
      exact hd_replace (by simp) (by simp) (by simp) hd
  | take l₁ l₂ j q ht hs hq =>
    have hcl : s.phase ≠ .closed := by
      intro h
      have := cl h .wait (by simp [ht])
      simp at this
    refine ⟨?_, ?_, wk, st, ?_, ?_, fun h => absurd h hcl⟩
    · intro i
      have := cnt i
      rw [ht, hq] at this
      simp only [List.count_append, List.count_cons] at this ⊢
      by_cases hij : j = i
      · subst hij
        simp at this ⊢
        omega
      · simp [hij] at this ⊢
        omega
    · rw [ht, hq] at out
      simp only [List.countP_append, List.countP_cons, T.busy, List.length_cons, if_true] at out ⊢
      simp at out
      omega
    · intro h
      apply dn
      rw [ht]
      simpa using h
    · rw [ht] at hd
      exact hd_replace (by simp) (by simp) (by simp) hd
  | finish l₁ l₂ j ht =>
    have hcl : s.phase ≠ .closed := by
      intro h
      have := cl h (.exec j) (by simp [ht])
      simp at this
    rw [ht] at out
    simp only [List.countP_append, List.countP_cons, T.busy, if_true] at out
    have hst : s.stopped = false := by
      cases hh : s.stopped with
      | false => rfl
      | true => have := st.mp hh; omega
    refine ⟨?_, ?_, wk, by simp [hst], ?_, ?_, fun h => absurd h hcl⟩
    · intro i
      have := cnt i
      rw [ht] at this
      simp only [List.count_append, List.count_cons] at this ⊢
      by_cases hij : j = i
      · subst hij
        simp at this ⊢
        omega
      · simp [hij] at this ⊢
        omega
    · simp [T.busy] at out ⊢
      omega
    · intro h
      have : T.done ∈ s.thr := by
        rw [ht]
        simpa using h
      have := dn this
      simp [this]
    · rw [ht] at hd
      exact hd_replace (by simp) (by simp) (by simp) hd
  | exit l₁ l₂ ht hs =>
    have hcl : s.phase ≠ .closed := by
      intro h
      have := cl h .wait (by simp [ht])
      simp at this
    refine ⟨?_, ?_, wk, st, fun _ => hs, ?_, fun h => absurd h hcl⟩
    · intro j
      have := cnt j
      rw [ht] at this
      simpa [List.count_append, List.count_cons] using this
    · rw [ht] at out
      simpa [T.busy] using out
    · rw [ht] at hd
      exact hd_replace (by simp) (by simp) (by simp) hd
  | stop ws hp ht =>
    have h1 : s.stopped = true := dn (by simp [ht])
    have h2 := st.mp h1
    refine ⟨cnt, out, ?_, by simp [h2], by simp, ?_, by simp⟩
    · rw [wk]
      simp [hp]
    · obtain ⟨m, ws', e, h3, h4, -⟩ := hd
      rw [ht] at e
      simp only [List.cons.injEq] at e
      obtain ⟨rfl, rfl⟩ := e
      exact ⟨.done, ws, ht, by simp, h4, by simp⟩
  | join hp ht =>
    refine ⟨cnt, out, ?_, st, dn, ?_, fun _ => ht⟩
    · rw [wk]
      simp [hp]
    · obtain ⟨m, ws, e, h3, h4, h5⟩ := hd
      refine ⟨m, ws, e, ?_, h4, by simp⟩
      have := h5 hp
      subst this
      simp

theorem Inv.reach {s : St} (h : Reach St.init s) : Inv s := by
  have key : ∀ a b, Reach a b → Inv a → Inv b := by
    intro a b h
    induction h with
    | refl => exact id
    | tail _ h' ih => exact fun ha => (ih ha).step h'
  exact key _ _ h Inv.init

/-- **C46.** Under every schedule, with any number of workers and of jobs: when `close()` has
returned, every job has been executed to the end exactly as many times as it was posted (in
particular exactly once if it was posted once), nothing is left in the queue, no thread is
executing anything and `run` has returned in every thread. -/
theorem C46_close {s : St} (h : Reach St.init s) (hc : s.phase = .closed) :
    (∀ j, s.completed.count j = s.posted.count j) ∧ s.queue = [] ∧ ∀ t ∈ s.thr, t = .done := by
  have I := Inv.reach h
  have hd := I.cl hc
  have hs : s.stopped = true := by
    obtain ⟨m, ws, e, -⟩ := I.hd
    refine I.dn ?_
    rw [e, ← hd m (by simp [e])]
    simp
  have h0 := I.st.mp hs
  have ho := I.out
  rw [h0] at ho
  have hq : s.queue = [] := List.eq_nil_of_length_eq_zero (by omega)
  refine ⟨fun j => ?_, hq, hd⟩
  have h1 := I.cnt j
  have h2 : s.thr.count (.exec j) = 0 := by
    rw [List.count_eq_zero]
    intro hm
    have := hd _ hm
    simp at this
  rw [hq, h2] at h1
  simpa using h1.symm

/-- **C46**, at every moment of every schedule: no job is ever executed, or being executed, more
often than it was posted, and none is lost. -/
theorem C46_account {s : St} (h : Reach St.init s) (j : Nat) :
    s.posted.count j = s.completed.count j + s.queue.count j + s.thr.count (.exec j) :=
  (Inv.reach h).cnt j

/-! ### `close` returns under every schedule -/

/-- weight of a thread -/
def T.weight : T → Nat
  | .out => 0
  | .fresh => 2
  | .wait => 1
  | .exec _ => 3
  | .done => 0

/-- weight of a phase -/
def Ph.weight : Ph → Nat
  | .user => 3
  | .closing => 2
  | .stopping => 1
  | .closed => 0

/-- every step during `close` makes this smaller -/
def St.weight (s : St) : Nat :=
  s.phase.weight + (s.thr.map T.weight).sum + 3 * s.queue.length

theorem step_weight {s t : St} (hs : Step s t) (hp : s.phase ≠ .user) :
    t.phase ≠ .user ∧ t.weight < s.weight := by
  cases hs with
  | start k h => exact absurd h hp
  | post j h => exact absurd h hp
  | reset ws h ht => exact absurd h hp
  | enterNone l₁ l₂ ht h0 =>
    refine ⟨hp, ?_⟩
    simp [St.weight, ht, T.weight]
  | enter l₁ l₂ ht h0 =>
    refine ⟨hp, ?_⟩
    simp [St.weight, ht, T.weight]
  | take l₁ l₂ j q ht hs hq =>
    refine ⟨hp, ?_⟩
    simp [St.weight, ht, hq, T.weight]
    omega
  | finish l₁ l₂ j ht =>
    refine ⟨hp, ?_⟩
    simp [St.weight, ht, T.weight]
  | exit l₁ l₂ ht hs =>
    refine ⟨hp, ?_⟩
    simp [St.weight, ht, T.weight]
  | stop ws hp' ht =>
    refine ⟨by simp, ?_⟩
    simp [St.weight, hp', Ph.weight]
  | join hp' ht =>
    refine ⟨by simp, ?_⟩
    simp [St.weight, hp', Ph.weight]

theorem Inv.progress {s : St} (I : Inv s) (hu : s.phase ≠ .user) (hc : s.phase ≠ .closed) :
    ∃ t, Step s t := by
  by_cases hf : T.fresh ∈ s.thr
  · obtain ⟨l₁, l₂, e⟩ := List.append_of_mem hf
    by_cases h0 : s.outst = 0
    · exact ⟨_, .enterNone s l₁ l₂ e h0⟩
    · exact ⟨_, .enter s l₁ l₂ e h0⟩
  by_cases he : ∃ j, T.exec j ∈ s.thr
  · obtain ⟨j, he⟩ := he
    obtain ⟨l₁, l₂, e⟩ := List.append_of_mem he
    exact ⟨_, .finish s l₁ l₂ j e⟩
  push Not at he
  obtain ⟨m, ws, e, h1, h2, h3⟩ := I.hd
  have hm : m ≠ .out := fun h => hu (h1.mp h)
  by_cases hw : T.wait ∈ s.thr
  · obtain ⟨l₁, l₂, e'⟩ := List.append_of_mem hw
    cases hs : s.stopped with
    | true => exact ⟨_, .exit s l₁ l₂ e' hs⟩
    | false =>
      have h0 : s.outst ≠ 0 := fun h => by
        have := I.st.mpr h
        simp [hs] at this
      have ho := I.out
      have hwk : s.work = false := by
        cases hh : s.work with
        | false => rfl
        | true => exact absurd (I.wk.mp hh) hu
      have hb : s.thr.countP T.busy = 0 := by
        rw [List.countP_eq_zero]
        intro t ht hb
        cases t <;> simp [T.busy] at hb
        exact he _ ht
      rw [hb, hwk] at ho
      cases hq : s.queue with
      | nil => simp [hq] at ho; exact absurd ho h0
      | cons j q => exact ⟨_, .take s l₁ l₂ j q e' hs hq⟩
  · have hall : ∀ t ∈ s.thr, t = .done := by
      intro t ht
      cases t with
      | out =>
        rw [e] at ht
        rcases List.mem_cons.mp ht with h | h
        · exact absurd h.symm hm
        · exact absurd h h2
      | fresh => exact absurd ht hf
      | wait => exact absurd ht hw
      | exec j => exact absurd ht (he j)
      | done => rfl
    cases hp : s.phase with
    | user => exact absurd hp hu
    | closed => exact absurd hp hc
    | stopping => exact ⟨_, .join s hp hall⟩
    | closing =>
      have : m = .done := hall m (by simp [e])
      subst this
      exact ⟨_, .stop s ws hp e⟩

/-- **C46**, termination: once `close()` has been called, under every schedule the number of
further steps is bounded, and a schedule can only end with `close()` having returned: there is no
deadlock and no endless wait. -/
theorem C46_returns {s : St} (h : Reach St.init s) (hp : s.phase ≠ .user) :
    (∃ N, ∀ (n : Nat) (f : Nat → St), f 0 = s → (∀ i < n, Step (f i) (f (i + 1))) → n ≤ N) ∧
    ∀ t, Reach s t → (∀ u, ¬ Step t u) → t.phase = .closed := by
  constructor
  · refine ⟨s.weight, fun n f h0 hf => ?_⟩
    have key : ∀ i ≤ n, (f i).phase ≠ .user ∧ (f i).weight + i ≤ s.weight := by
      intro i
      induction i with
      | zero => intro _; rw [h0]; exact ⟨hp, by omega⟩
      | succ i ih =>
        intro hi
        obtain ⟨h1, h2⟩ := ih (by omega)
        obtain ⟨h3, h4⟩ := step_weight (hf i (by omega)) h1
        exact ⟨h3, by omega⟩
    have := (key n le_rfl).2
    omega
  · intro t ht hno
    have key : ∀ a b, Reach a b → Inv a → a.phase ≠ .user → Inv b ∧ b.phase ≠ .user := by
      intro a b h
      induction h with
      | refl => exact fun h1 h2 => ⟨h1, h2⟩
      | tail _ h' ih =>
        intro h1 h2
        obtain ⟨h3, h4⟩ := ih h1 h2
        exact ⟨h3.step h', (step_weight h' h4).1⟩
    obtain ⟨h1, h2⟩ := key s t ht (Inv.reach h) hp
    by_contra hc
    obtain ⟨u, hu⟩ := h1.progress h2 hc
    exact hno u hu

/-- **C46**, the number of threads: when the system reports at least one hardware thread, `start`
creates one thread fewer than the smaller of the system limit and the (positive) request. -/
theorem C46_threads (mx n : Nat) (h : 0 < mx) (hb : mx < 2 ^ 32) :
    created mx n + 1 = if n = 0 then mx else min n mx := by
  have : threadCount mx n = if n = 0 then mx else min n mx := by
    simp only [threadCount]
    by_cases h0 : n = 0
    · simp [h0]
    · have : 0 < n := by omega
      simp only [this, if_true, h0, if_false]
      split_ifs <;> omega
  rw [created, this]
  by_cases h0 : n = 0
  · simp only [h0, if_true]
    omega
  · simp only [h0, if_false]
    omega

/-- When `hardware_concurrency()` reports `0` (as it may when the number is not known) the loop
bound wraps round, whatever was requested. -/
theorem C46_zero_concurrency (n : Nat) : created 0 n = 2 ^ 32 - 1 := by
  have : threadCount 0 n = 0 := by
    simp only [threadCount]
    split_ifs <;> omega
  rw [created, this]
  rfl

/-- **C46**, restart: the pool cannot be used again after `close()`, though the comment on `start`
allows it: after `close()`, `start()`, whatever is done next and under every schedule, no job is
executed any more. -/
theorem C46_restart_idle {s t u : St} (h : Reach St.init s) (hc : s.phase = .closed)
    (hr : Restart s t) (hu : Reach t u) : u.completed = s.completed := by
  have key : ∀ a b, Reach a b → (a.stopped = true ∧ ∀ j, T.exec j ∉ a.thr) →
      b.completed = a.completed ∧ (b.stopped = true ∧ ∀ j, T.exec j ∉ b.thr) := by
    intro a b h
    induction h with
    | refl => exact fun h => ⟨rfl, h⟩
    | @tail b c _ h' ih =>
      intro ha
      obtain ⟨h1, h2, h3⟩ := ih ha
      rw [← h1]
      cases h' with
      | start k hp => exact ⟨rfl, h2, by simpa [List.mem_replicate] using h3⟩
      | post j hp => exact ⟨rfl, h2, h3⟩
      | reset ws hp ht =>
        rw [ht] at h3
        exact ⟨rfl, by simp [h2], by simpa using h3⟩
      | enterNone l₁ l₂ ht h0 =>
        rw [ht] at h3
        exact ⟨rfl, rfl, by simpa using h3⟩
      | enter l₁ l₂ ht h0 =>
        rw [ht] at h3
        exact ⟨rfl, h2, by simpa using h3⟩
      | take l₁ l₂ j q ht hs hq => simp [h2] at hs
      | finish l₁ l₂ j ht => exact absurd (by simp [ht]) (h3 j)
      | exit l₁ l₂ ht hs =>
        rw [ht] at h3
        exact ⟨rfl, h2, by simpa using h3⟩
      | stop ws hp ht => exact ⟨rfl, rfl, h3⟩
      | join hp ht => exact ⟨rfl, h2, h3⟩
  cases hr with
  | start k _ =>
    refine (key _ _ hu ⟨?_, ?_⟩).1
    · have I := Inv.reach h
      obtain ⟨m, ws, e, -⟩ := I.hd
      refine I.dn ?_
      rw [e, ← I.cl hc m (by simp [e])]
      simp
    · simp [List.mem_replicate]

/-- The second `close()` after such a restart does return, with the job still in the queue. -/
theorem C46_restart_loses :
    ∃ s t u : St, Reach St.init s ∧ s.phase = .closed ∧ Restart s t ∧ Reach t u ∧
      u.phase = .closed ∧ u.posted = [7] ∧ u.completed = [] ∧ u.queue = [7] := by
  refine ⟨⟨.closed, [.done], [], false, 0, true, [], []⟩,
    ⟨.user, [.out, .fresh], [], false, 0, true, [], []⟩,
    ⟨.closed, [.done, .done], [7], false, 1, true, [7], []⟩, ?_, rfl, ?_, ?_, rfl, rfl, rfl, rfl⟩
  · refine .tail (.tail (.tail (.tail (.refl _) (.reset _ [] rfl rfl)) (.enterNone _ [] [] rfl rfl))
      (.stop _ [] rfl rfl)) (.join _ rfl ?_)
    simp
  · exact .start ⟨.closed, [.done], [], false, 0, true, [], []⟩ 1 rfl
  · have s1 := Step.post ⟨.user, [.out, .fresh], [], false, 0, true, [], []⟩ 7 rfl
    have s2 := Step.reset ⟨.user, [.out, .fresh], [7], false, 1, true, [7], []⟩ [.fresh] rfl rfl
    have s3 := Step.enter ⟨.closing, [.fresh, .fresh], [7], false, 1, true, [7], []⟩ []
      [.fresh] rfl (by simp)
    have s4 := Step.enter ⟨.closing, [.wait, .fresh], [7], false, 1, true, [7], []⟩ [.wait]
      [] rfl (by simp)
    have s5 := Step.exit ⟨.closing, [.wait, .wait], [7], false, 1, true, [7], []⟩ []
      [.wait] rfl rfl
    have s6 := Step.exit ⟨.closing, [.done, .wait], [7], false, 1, true, [7], []⟩ [.done]
      [] rfl rfl
    have s7 := Step.stop ⟨.closing, [.done, .done], [7], false, 1, true, [7], []⟩ [.done] rfl rfl
    have s8 := Step.join ⟨.stopping, [.done, .done], [7], false, 1, true, [7], []⟩ rfl (by simp)
    exact ((((((((Reach.refl _).tail s1).tail s2).tail s3).tail s4).tail s5).tail s6).tail s7).tail s8

/-- A non-trivial execution of the first life: one worker, two jobs, each thread executing one,
the worker still busy when the main thread enters `run`. -/
example : ∃ s, Reach St.init s ∧ s.phase = .closed ∧ s.posted = [5, 4] ∧ s.completed = [4, 5] := by
  refine ⟨⟨.closed, [.done, .done], [], false, 0, true, [5, 4], [4, 5]⟩, ?_, rfl, rfl, rfl⟩
  have s1 := Step.start St.init 1 rfl
  have s2 := Step.post ⟨.user, [.out, .fresh], [], true, 1, false, [], []⟩ 4 rfl
  have s3 := Step.enter ⟨.user, [.out, .fresh], [4], true, 2, false, [4], []⟩ [.out] [] rfl (by simp)
  have s4 := Step.take ⟨.user, [.out, .wait], [4], true, 2, false, [4], []⟩ [.out] [] 4 [] rfl rfl rfl
  have s5 := Step.post ⟨.user, [.out, .exec 4], [], true, 2, false, [4], []⟩ 5 rfl
  have s6 := Step.reset ⟨.user, [.out, .exec 4], [5], true, 3, false, [5, 4], []⟩ [.exec 4] rfl rfl
  have s7 := Step.enter ⟨.closing, [.fresh, .exec 4], [5], false, 2, false, [5, 4], []⟩ [] [.exec 4]
    rfl (by simp)
  have s8 := Step.take ⟨.closing, [.wait, .exec 4], [5], false, 2, false, [5, 4], []⟩ [] [.exec 4]
    5 [] rfl rfl rfl
  have s9 := Step.finish ⟨.closing, [.exec 5, .exec 4], [], false, 2, false, [5, 4], []⟩ [] [.exec 4]
    5 rfl
  have s10 := Step.finish ⟨.closing, [.wait, .exec 4], [], false, 1, false, [5, 4], [5]⟩ [.wait] []
    4 rfl
  have s11 := Step.exit ⟨.closing, [.wait, .wait], [], false, 0, true, [5, 4], [4, 5]⟩ [] [.wait]
    rfl rfl
  have s12 := Step.exit ⟨.closing, [.done, .wait], [], false, 0, true, [5, 4], [4, 5]⟩ [.done] []
    rfl rfl
  have s13 := Step.stop ⟨.closing, [.done, .done], [], false, 0, true, [5, 4], [4, 5]⟩ [.done] rfl rfl
  have s14 := Step.join ⟨.stopping, [.done, .done], [], false, 0, true, [5, 4], [4, 5]⟩ rfl (by simp)
  exact ((((((((((((((Reach.refl _).tail s1).tail s2).tail s3).tail s4).tail s5).tail s6).tail
    s7).tail s8).tail s9).tail s10).tail s11).tail s12).tail s13).tail s14

end Eclib.Pool
