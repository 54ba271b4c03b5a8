import Mathlib.Logic.Function.Basic
import Mathlib.Order.WithBot
import Mathlib.Data.List.Basic
/-!
# Epoch-based reclamation (include/epoch.h, src/epoch.cpp), one shared access per step

Threads are numbered; `reg` are the threads whose `DeletionList` exists (`enumerable_thread_specific`).
`⊤` stands for `numeric_limits<uint64_t>::max()`; epochs do not overflow. Retired addresses carry a ghost
identifier so that two retirements of the same address can be told apart.
-/

namespace QDD.Epoch

/-- `DeleteEntry` (epoch.h 9-14): up to 32 retired addresses and the epoch of the last one. -/
structure Label where
  nodes : List (Nat × Nat)
  epoch : Nat

/-- Where a thread is; the comment says what comes next (epoch.cpp lines). -/
inductive Pc
  | rest
  | ent0                                        -- 59 load currentEpoch
  | ent1 (e : Nat)                              -- 60 store localEpoch
  | mark0 (x id : Nat)                          -- 65 load currentEpoch
  | mark1 (x id e : Nat)                        -- 65 add to the list
  | exit0                                       -- 71-72 bump
  | exit1                                       -- 74 test the counter, 75 empty list, 79 store max
  | exit2 (todo : List Nat) (oldest : WithTop Nat)   -- 82-87 scan
  | exit3 (oldest : WithTop Nat) (kept rest : List Label)   -- 89-104 deletion loop

structure St where
  cur : Nat
  reg : List Nat
  loc : Nat → WithTop Nat
  buf : Nat → Option Nat
  labels : Nat → List Label
  counter : Nat → Nat
  depth : Nat → Nat
  pc : Nat → Pc
  nextId : Nat

/-- What is observed. `entered t`: the call to `enterEpoch` (a guard's constructor) returned.
`exiting t`: a guard's destructor was called. `retired t x id`: `markNodeForDeletion(x)` was called.
`freed x id`: `delete x`. `dropped t`: `~ThreadInfo`. -/
inductive Ev
  | entered (t : Nat)
  | exiting (t : Nat)
  | retired (t x id : Nat)
  | freed (x id : Nat)
  | dropped (t : Nat)
  deriving DecidableEq

/-- `DeletionList::add` (epoch.cpp 32-54). -/
def addLabel (ls : List Label) (x id e : Nat) : List Label :=
  match ls with
  | l :: ls =>
    if l.nodes.length < 32 then { nodes := l.nodes ++ [(x, id)], epoch := e } :: ls
    else { nodes := [(x, id)], epoch := e } :: l :: ls
  | [] => [{ nodes := [(x, id)], epoch := e }]

/-- `DeletionList::size` (epoch.cpp 18; `deletionListCount` is kept equal to this by `add` and `remove`). -/
def size (ls : List Label) : Nat := (ls.map fun l => l.nodes.length).sum

def St.setPc (s : St) (t : Nat) (p : Pc) : St := { s with pc := Function.update s.pc t p }

/-- One step of thread `t`, with the events it shows (newest first). `thr` is `startGCThreshhold`. `tso` says
whether the plain release store of line 60 may stay in a store buffer after the call has returned (as on
x86); with `tso = false` memory is sequentially consistent. -/
inductive Step (thr : Nat) (tso : Bool) : St → List Ev → St → Prop
  /-- `ThreadInfo(Epoch&)` (epoch.cpp 136-137); `localEpoch` has no initialiser: any value. -/
  | register {s t v} : s.pc t = .rest → t ∉ s.reg →
      Step thr tso s [] { s with reg := s.reg ++ [t], loc := Function.update s.loc t v }
  /-- `~ThreadInfo` (epoch.h 108-110). -/
  | drop {s t} : s.pc t = .rest → t ∈ s.reg → s.buf t = none →
      Step thr tso s [.dropped t] { s with loc := Function.update s.loc t ⊤ }
  -- enterEpoch (epoch.cpp 58-62), called by the constructors of the guards (epoch.h 88-90, 100-102)
  | enter {s t} : s.pc t = .rest → t ∈ s.reg → Step thr tso s [] (s.setPc t .ent0)
  | ent0 {s t} : s.pc t = .ent0 → Step thr tso s [] (s.setPc t (.ent1 s.cur))
  | ent1 {s t} {e : Nat} : s.pc t = .ent1 e → s.buf t = none →
      Step thr tso s [.entered t]
        { s with loc := Function.update s.loc t (e : WithTop Nat)
                 depth := Function.update s.depth t (s.depth t + 1)
                 pc := Function.update s.pc t .rest }
  | ent1_buffered {s t} {e : Nat} : tso = true → s.pc t = .ent1 e → s.buf t = none →
      Step thr tso s [.entered t]
        { s with buf := Function.update s.buf t (some e)
                 depth := Function.update s.depth t (s.depth t + 1)
                 pc := Function.update s.pc t .rest }
  | flush {s t} {e : Nat} : s.buf t = some e →
      Step thr tso s [] { s with buf := Function.update s.buf t none, loc := Function.update s.loc t (e : WithTop Nat) }
  -- markNodeForDeletion (epoch.cpp 64-67)
  | mark {s t x} : s.pc t = .rest → t ∈ s.reg →
      Step thr tso s [.retired t x s.nextId]
        { s with nextId := s.nextId + 1, pc := Function.update s.pc t (.mark0 x s.nextId) }
  | mark0 {s t x id} : s.pc t = .mark0 x id → Step thr tso s [] (s.setPc t (.mark1 x id s.cur))
  | mark1 {s t x id e} : s.pc t = .mark1 x id e →
      Step thr tso s []
        { s with labels := Function.update s.labels t (addLabel (s.labels t) x id e)
                 counter := Function.update s.counter t (s.counter t + 1)
                 pc := Function.update s.pc t .rest }
  -- exitEpochAndCleanup (epoch.cpp 69-106), called by ~EpochGuard (epoch.h 92-94)
  | exit {s t} : s.pc t = .rest → 0 < s.depth t →
      Step thr tso s [.exiting t]
        { s with depth := Function.update s.depth t (s.depth t - 1), pc := Function.update s.pc t .exit0 }
  /-- `~EpochGuardReadonly` does nothing (epoch.h 104-105). -/
  | exitReadonly {s t} : s.pc t = .rest → 0 < s.depth t →
      Step thr tso s [.exiting t] { s with depth := Function.update s.depth t (s.depth t - 1) }
  | exit0_bump {s t} : s.pc t = .exit0 → s.counter t % 64 = 1 →
      Step thr tso s [] { s with cur := s.cur + 1, pc := Function.update s.pc t .exit1 }
  | exit0_no {s t} : s.pc t = .exit0 → s.counter t % 64 ≠ 1 → Step thr tso s [] (s.setPc t .exit1)
  | exit1_below {s t} : s.pc t = .exit1 → ¬ s.counter t > thr → Step thr tso s [] (s.setPc t .rest)
  | exit1_empty {s t} : s.pc t = .exit1 → s.counter t > thr → size (s.labels t) = 0 →
      Step thr tso s [] { s with counter := Function.update s.counter t 0, pc := Function.update s.pc t .rest }
  | exit1_scan {s t} : s.pc t = .exit1 → s.counter t > thr → size (s.labels t) ≠ 0 → s.buf t = none →
      Step thr tso s []
        { s with loc := Function.update s.loc t ⊤, pc := Function.update s.pc t (.exit2 s.reg ⊤) }
  | exit2 {s t u todo oldest} : s.pc t = .exit2 (u :: todo) oldest →
      Step thr tso s [] (s.setPc t (.exit2 todo (if s.loc u < oldest then s.loc u else oldest)))
  | exit2_end {s t oldest} : s.pc t = .exit2 [] oldest →
      Step thr tso s [] (s.setPc t (.exit3 oldest [] (s.labels t)))
  | exit3_free {s t oldest kept l rest} : s.pc t = .exit3 oldest kept (l :: rest) → (l.epoch : WithTop Nat) < oldest →
      Step thr tso s (l.nodes.map fun n => Ev.freed n.1 n.2).reverse
        { s with labels := Function.update s.labels t (kept ++ rest), pc := Function.update s.pc t (.exit3 oldest kept rest) }
  | exit3_keep {s t oldest kept l rest} : s.pc t = .exit3 oldest kept (l :: rest) → ¬ (l.epoch : WithTop Nat) < oldest →
      Step thr tso s [] (s.setPc t (.exit3 oldest (kept ++ [l]) rest))
  | exit3_end {s t oldest kept} : s.pc t = .exit3 oldest kept [] →
      Step thr tso s [] { s with counter := Function.update s.counter t 0, pc := Function.update s.pc t .rest }

/-- A fresh `Epoch` object. -/
def init : St :=
  { cur := 0, reg := [], loc := fun _ => ⊤, buf := fun _ => none, labels := fun _ => [], counter := fun _ => 0,
    depth := fun _ => 0, pc := fun _ => .rest, nextId := 0 }

/-- Runs with their events, newest first. -/
inductive Run (thr : Nat) (tso : Bool) : List Ev → St → Prop
  | nil : Run thr tso [] init
  | step {tr s es s'} : Run thr tso tr s → Step thr tso s es s' → Run thr tso (es ++ tr) s'

/-! ## Specification vocabulary (events newest first) -/

/-- After these events, how many guards of thread `t` are alive. -/
def guards (t : Nat) : List Ev → Nat
  | [] => 0
  | .entered u :: tr => guards t tr + if u = t then 1 else 0
  | .exiting u :: tr => guards t tr - if u = t then 1 else 0
  | _ :: tr => guards t tr

/-- Guards are used one at a time per thread, and no `ThreadInfo` (or copy of it) dies while one is alive. -/
def WellUsed : List Ev → Prop
  | [] => True
  | .entered t :: tr => guards t tr = 0 ∧ WellUsed tr
  | .dropped t :: tr => guards t tr = 0 ∧ WellUsed tr
  | _ :: tr => WellUsed tr

end QDD.Epoch
