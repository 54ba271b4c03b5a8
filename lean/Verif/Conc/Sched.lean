import Mathlib.Data.List.Basic
/-!
# Construction and destruction of the fiber scheduler (src/task.cpp, include/task.h, qdd/bindings.cpp 170-193)

Only what decides C44 is modelled: the static counter, the static vector of schedulers (sized once), the
static barrier, the stop condition variable and the join. Fibers and stealing are not.
-/

namespace QDD.Sched

/-- A thread of one scheduler. Thread 0 is the caller (`use_scheduling_algorithm` at task.cpp 145); the others
are the workers (task.cpp 120-131). -/
inductive Pc
  | fresh             -- before `id_{counter_++}` (task.cpp 32)
  | got (id : Nat)    -- before `call_once` and `schedulers_[id_] = this` (36-38)
  | wrote             -- before `b.wait()` (39)
  | atBarrier         -- inside `b.wait()`
  | free              -- a worker before `cond_stop.wait(lk)` (128)
  | waiting           -- inside `cond_stop.wait(lk)`
  | done
  deriving DecidableEq

inductive Main
  | idle
  | running           -- the constructor may still be waiting in its own barrier: thread 0 is not `done`
  | joining           -- destructor after `notify_all` (157), joining (159-161)
  deriving DecidableEq

structure St where
  counter : Nat          -- `counter_` (static)
  size : Option Nat      -- size of `schedulers_` once `init_` ran (static `once_flag`)
  need : Option Nat      -- count of the static barrier, fixed by the first `my_ws` (33)
  arrived : Nat
  ths : List Pc
  main : Main

/-- `write id size`: `schedulers_[id] = this` on a vector of that size (operator[], unchecked). -/
inductive Ev
  | start (n : Nat)
  | write (id size : Nat)
  | stopped
  deriving DecidableEq

/-- After the barrier opens: thread 0 returns from the constructor, the workers go on to wait. -/
def release (i : Nat) : Pc → Pc
  | .atBarrier => if i = 0 then .done else .free
  | p => p

/-- `notify_all` (157). -/
def wake : Pc → Pc
  | .waiting => .done
  | p => p

inductive Step : St → Option Ev → St → Prop
  /-- `new Scheduler(n)` (bindings.cpp 188): n workers and the caller. -/
  | start {s n} : s.main = .idle → Step s (some (.start n)) { s with ths := List.replicate (n + 1) .fresh, main := .running }
  | ctor {s i} : s.ths[i]? = some .fresh →
      Step s none { s with counter := s.counter + 1, ths := s.ths.set i (.got s.counter) }
  /-- `call_once` initialises the vector to `thread_count` null pointers the first time only; then the write. The
  static barrier is created by the first constructor. -/
  | write {s i id} : s.ths[i]? = some (.got id) →
      Step s (some (.write id (s.size.getD s.ths.length)))
        { s with size := some (s.size.getD s.ths.length), need := some (s.need.getD s.ths.length), ths := s.ths.set i .wrote }
  | arrive {s i k} : s.ths[i]? = some .wrote → s.need = some k → s.arrived + 1 < k →
      Step s none { s with arrived := s.arrived + 1, ths := s.ths.set i .atBarrier }
  | arriveLast {s i k} : s.ths[i]? = some .wrote → s.need = some k → ¬ s.arrived + 1 < k →
      Step s none { s with arrived := 0, ths := (s.ths.set i .atBarrier).mapIdx release }
  | wait {s i} : s.ths[i]? = some .free → Step s none { s with ths := s.ths.set i .waiting }
  /-- `~Scheduler` (156-161), once the constructor has returned. -/
  | notify {s} : s.main = .running → s.ths[0]? = some .done →
      Step s none { s with ths := s.ths.map wake, main := .joining }
  | joined {s} : s.main = .joining → (∀ p, p ∈ s.ths → p = .done) →
      Step s (some .stopped) { s with ths := [], main := .idle }

def init : St := { counter := 0, size := none, need := none, arrived := 0, ths := [], main := .idle }

/-- Runs with their events in order. -/
inductive Run : List Ev → St → Prop
  | nil : Run [] init
  | tau {tr s s'} : Run tr s → Step s none s' → Run tr s'
  | vis {tr s s' e} : Run tr s → Step s (some e) s' → Run (tr ++ [e]) s'

end QDD.Sched
