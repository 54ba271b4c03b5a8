import Mathlib.Data.List.Basic
/-!
# Ready queues and stealing of the fiber scheduler (src/task.cpp 43-88, include/task.h 24-76)

`n` is `thread_count_`, which is also the size of `schedulers_` (all entries are registered before any constructor returns:
C44, first scheduler).  `rqueue_` is Boost's `context_spinlock_queue`: every operation holds its spinlock, so each is one
step; `push` appends, `pop` and `steal` take the oldest element, and `steal` takes nothing if that is pinned to its thread.
Attaching and detaching contexts, suspension and notification are left out (`suspend_` is always false).
-/

namespace QDD.Steal

/-- Where a thread stands in `pick_next`. -/
inductive Pc
  | out                        -- not in `pick_next`
  | drawing (count : Nat)      -- before `++count; id = distribution(generator)` (task.cpp 68-72)
  | stealing (id count : Nat)  -- before `schedulers_[id]->steal()` (task.cpp 75)
  deriving DecidableEq

structure St where
  q : Nat → List Nat
  pc : Nat → Pc

/-- Observable events.  `took t i f`: `pick_next` of thread `t` returns fiber `f`, which was in the queue of thread `i`. -/
inductive Ev
  | awake (t f : Nat)
  | took (t i f : Nat)
  | tried (t i : Nat)      -- `schedulers_[i]` is accessed
  | null (t : Nat)         -- `pick_next` returns `nullptr`
  deriving DecidableEq

/-- Steps of `n` threads; `pinned f` is `is_context(type::pinned_context)`. -/
inductive Step (n : Nat) (pinned : Nat → Bool) : St → List Ev → St → Prop
  /-- `awakened` (task.cpp 43-48). -/
  | awake {s t f} : t < n → Step n pinned s [.awake t f] { s with q := Function.update s.q t (s.q t ++ [f]) }
  /-- `rqueue_.pop()` gives a fiber (task.cpp 51-60). -/
  | pop {s t f l} : t < n → s.pc t = .out → s.q t = f :: l →
      Step n pinned s [.took t t f] { s with q := Function.update s.q t l }
  /-- `rqueue_.pop()` gives nothing (task.cpp 51, 61-66). -/
  | empty {s t} : t < n → s.pc t = .out → s.q t = [] → Step n pinned s [] { s with pc := Function.update s.pc t (.drawing 0) }
  /-- The own id is drawn (task.cpp 68-73). -/
  | self {s t c} : t < n → s.pc t = .drawing c → Step n pinned s [] { s with pc := Function.update s.pc t (.drawing (c + 1)) }
  /-- Another id is drawn (task.cpp 65-73). -/
  | other {s t i c} : t < n → s.pc t = .drawing c → i < n → i ≠ t →
      Step n pinned s [] { s with pc := Function.update s.pc t (.stealing i (c + 1)) }
  /-- A fiber is stolen (task.cpp 75-81). -/
  | steal {s t i c f l} : t < n → s.pc t = .stealing i c → s.q i = f :: l → pinned f = false →
      Step n pinned s [.tried t i, .took t i f] ⟨Function.update s.q i l, Function.update s.pc t .out⟩
  /-- Nothing is stolen and the loop goes on (task.cpp 75-76). -/
  | again {s t i c} : t < n → s.pc t = .stealing i c → (∀ f l, s.q i = f :: l → pinned f = true) → c < n →
      Step n pinned s [.tried t i] { s with pc := Function.update s.pc t (.drawing c) }
  /-- Nothing is stolen and the loop ends (task.cpp 75-84). -/
  | giveUp {s t i c} : t < n → s.pc t = .stealing i c → (∀ f l, s.q i = f :: l → pinned f = true) → ¬ c < n →
      Step n pinned s [.tried t i, .null t] { s with pc := Function.update s.pc t .out }

def init : St := ⟨fun _ => [], fun _ => .out⟩

/-- Runs with their events in order. -/
inductive Run (n : Nat) (pinned : Nat → Bool) : List Ev → St → Prop
  | nil : Run n pinned [] init
  | step {tr s es s'} : Run n pinned tr s → Step n pinned s es s' → Run n pinned (tr ++ es) s'

end QDD.Steal
