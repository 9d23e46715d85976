import Mathlib.Data.List.Basic

/-!
# Model of `threadpool.cc` / `threadpool.h`

A labelled transition system.  What is trusted about Boost, and stated in the rules:

* `io_service` keeps a queue of posted handlers, a count of outstanding work (the `work` object,
  queued handlers and handlers being executed) and a flag `stopped`;
* `post` appends to the queue and adds one to the count;
* `run` (of any thread) first sets `stopped` and returns if the count is zero; otherwise it
  repeatedly takes one handler from the front of the queue and executes it outside the lock; after
  a handler has finished the count goes down by one, and `stopped` is set when it becomes zero; it
  returns when `stopped` is set;
* destroying the `work` object takes one from the count, again setting `stopped` at zero;
* `stop` sets `stopped`; `join_all` waits until `run` has returned in every created thread.

Tasks end and throw no exceptions; tasks post no tasks (none does in eclib); the pool is used from
one thread.  Interleaving is arbitrary: any rule that applies may be the next step.
-/

namespace Eclib.Pool

/-- where a thread is with respect to its call of `io_service::run` -/
inductive T where
  /-- the main thread, not in `run` -/
  | out
  /-- `run` is about to be called -/
  | fresh
  /-- in `run`, between two handlers -/
  | wait
  /-- in `run`, executing job `j` -/
  | exec (j : Nat)
  /-- `run` has returned -/
  | done
  deriving DecidableEq, Repr

/-- where the main thread is -/
inductive Ph where
  /-- before `close()` -/
  | user
  /-- in `close()`, after `work_.reset()` (threadpool.cc:127), in `io_service_.run()` -/
  | closing
  /-- in `close()`, after `io_service_.stop()` (threadpool.cc:133) -/
  | stopping
  /-- `close()` has returned -/
  | closed
  deriving DecidableEq, Repr

/-- a state of the pool; the head of `thr` is the main thread -/
structure St where
  /-- place of the main thread -/
  phase : Ph
  /-- the threads -/
  thr : List T
  /-- queue of handlers -/
  queue : List Nat
  /-- the `work_` object exists -/
  work : Bool
  /-- count of outstanding work -/
  outst : Nat
  /-- the flag `stopped` -/
  stopped : Bool
  /-- ghost: all jobs posted so far -/
  posted : List Nat
  /-- ghost: all jobs whose execution has ended -/
  completed : List Nat
  deriving DecidableEq, Repr

/-- the constructors (threadpool.cc:48-61) before `start` -/
def St.init : St :=
  { phase := .user, thr := [.out], queue := [], work := true, outst := 1, stopped := false,
    posted := [], completed := [] }

/-- `threadCount_` (threadpool.cc:83-98) with `maxThreads_ = mx` -/
def threadCount (mx numThreads : Nat) : Nat :=
  let c := if numThreads > 0 then numThreads else mx
  if c > mx then mx else c

/-- the number of threads created by `start` (threadpool.cc:106): `threadCount_-1` is computed in
`unsigned int` -/
def created (mx numThreads : Nat) : Nat := (threadCount mx numThreads + 2 ^ 32 - 1) % 2 ^ 32

/-- one step of the system -/
inductive Step : St → St → Prop
  /-- `start` (threadpool.cc:78-109) creates `k` threads that call `run` -/
  | start (s : St) (k : Nat) (h : s.phase = .user) :
      Step s { s with thr := s.thr ++ List.replicate k .fresh }
  /-- `post` (threadpool.h:48-65) -/
  | post (s : St) (j : Nat) (h : s.phase = .user) :
      Step s { s with queue := s.queue ++ [j], outst := s.outst + 1, posted := j :: s.posted }
  /-- `work_.reset()` at the beginning of `close` (threadpool.cc:127), which does nothing if there is no
  `work_` object; the main thread goes on to
  call `run` (threadpool.cc:130) -/
  | reset (s : St) (ws : List T) (h : s.phase = .user) (ht : s.thr = .out :: ws) :
      Step s { s with phase := .closing, thr := .fresh :: ws, work := false,
                      outst := s.outst - s.work.toNat,
                      stopped := s.stopped || (s.work && s.outst - 1 == 0) }
  /-- `run` is called with no outstanding work -/
  | enterNone (s : St) (l₁ l₂ : List T) (ht : s.thr = l₁ ++ .fresh :: l₂) (h : s.outst = 0) :
      Step s { s with thr := l₁ ++ .done :: l₂, stopped := true }
  /-- `run` is called with outstanding work -/
  | enter (s : St) (l₁ l₂ : List T) (ht : s.thr = l₁ ++ .fresh :: l₂) (h : s.outst ≠ 0) :
      Step s { s with thr := l₁ ++ .wait :: l₂ }
  /-- a thread takes the first handler of the queue -/
  | take (s : St) (l₁ l₂ : List T) (j : Nat) (q : List Nat) (ht : s.thr = l₁ ++ .wait :: l₂)
      (hs : s.stopped = false) (hq : s.queue = j :: q) :
      Step s { s with thr := l₁ ++ .exec j :: l₂, queue := q }
  /-- a handler ends -/
  | finish (s : St) (l₁ l₂ : List T) (j : Nat) (ht : s.thr = l₁ ++ .exec j :: l₂) :
      Step s { s with thr := l₁ ++ .wait :: l₂, outst := s.outst - 1,
                      stopped := s.stopped || (s.outst - 1 == 0), completed := j :: s.completed }
  /-- `run` returns because `stopped` is set -/
  | exit (s : St) (l₁ l₂ : List T) (ht : s.thr = l₁ ++ .wait :: l₂) (hs : s.stopped = true) :
      Step s { s with thr := l₁ ++ .done :: l₂ }
  /-- `io_service_.stop()` after `run` has returned in the main thread (threadpool.cc:133) -/
  | stop (s : St) (ws : List T) (h : s.phase = .closing) (ht : s.thr = .done :: ws) :
      Step s { s with phase := .stopping, stopped := true }
  /-- `threads_.join_all()` (threadpool.cc:134), the last line of `close` -/
  | join (s : St) (h : s.phase = .stopping) (ht : ∀ t ∈ s.thr, t = .done) :
      Step s { s with phase := .closed }

/-- `start` called again after `close`, as its comment allows (threadpool.cc:72-78): the
`io_service` is still stopped and there is no `work_` object -/
inductive Restart : St → St → Prop
  /-- `start` with `k` new threads -/
  | start (s : St) (k : Nat) (h : s.phase = .closed) :
      Restart s { s with phase := .user, thr := .out :: List.replicate k .fresh }

/-- reachable by steps -/
inductive Reach : St → St → Prop
  /-- no step -/
  | refl (s : St) : Reach s s
  /-- one more step -/
  | tail {s t u : St} (h : Reach s t) (h' : Step t u) : Reach s u

end Eclib.Pool
