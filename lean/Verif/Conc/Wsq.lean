import Mathlib.Logic.Function.Basic
import Mathlib.Data.List.Basic
import Mathlib.Order.Basic
/-!
# The work-stealing queue (include/wsq.hpp), at the granularity of one shared-memory access

One owner thread runs `push` and `pop`; any number of thieves, numbered by `Nat`, run `steal`.
Memory is sequentially consistent (the memory-order arguments are not modelled). Indices are unbounded
integers (the code uses `int64_t`).
-/

namespace QDD.Wsq

/-- `Array` (wsq.hpp 29-66): `C` cells, `M = C - 1`. -/
structure Arr (T : Type) where
  cap : Nat
  cell : Nat → T

/-- `S[i & M]` (wsq.hpp 51, 55). -/
def Arr.get {T} (a : Arr T) (i : Int) : T := a.cell (i.toNat &&& (a.cap - 1))

/-- `Array::push` (wsq.hpp 49-52). -/
def Arr.put {T} (a : Arr T) (i : Int) (x : T) : Arr T :=
  { a with cell := Function.update a.cell (i.toNat &&& (a.cap - 1)) x }

/-- The copy loop of `Array::resize` (wsq.hpp 58-64): `for (i = t; i != b; ++i) ptr->push(i, pop(i))`. -/
def copyLoop {T} (src : Arr T) (i : Int) : Nat → Arr T → Arr T
  | 0, dst => dst
  | k + 1, dst => copyLoop src (i + 1) k (dst.put i (src.get i))

/-- Where the owner is. Comments give the line whose access comes next. -/
inductive Own (T : Type)
  | idle
  | push0 (o : T)                       -- 174 load bottom
  | push1 (o : T) (b : Int)             -- 175 load top
  | push2 (o : T) (b t : Int)           -- 176 load array, 179 test
  | push2r (o : T) (b t : Int) (n : Nat)  -- 183 store array (after resize, 180)
  | push3 (o : T) (b : Int) (a : Nat)   -- 186 write the cell
  | push4 (o : T) (b : Int)             -- 188 store bottom
  | pushR                               -- return
  | pop0                                -- 194 load bottom
  | pop1 (b : Int) (a : Nat)            -- 196 store bottom (array loaded at 195)
  | pop2 (b : Int) (a : Nat)            -- 198 load top
  | pop3 (b : Int) (a : Nat) (t : Int)  -- 202/204 tests, 203 read the cell
  | pop4 (b t : Int) (x : T)            -- 206 compare_exchange
  | pop5 (b : Int) (r : Option T)       -- 211 / 215 store bottom
  | popR (r : Option T)                 -- return

/-- Where a thief is. -/
inductive Thief (T : Type)
  | idle
  | s0                          -- 233 load top
  | s1 (t : Int)                -- 235 load bottom, 239 test
  | s2 (t : Int)                -- 240 load array
  | s3 (t : Int) (a : Nat)      -- 241 read the cell
  | s4 (t : Int) (x : T)        -- 242 compare_exchange
  | sR (r : Option T)           -- return

/-- The shared memory and the control points of all threads. `heap` holds every array ever allocated (the
old ones stay in `_garbage` until the destructor), `fresh` the next free identifier. -/
structure St (T : Type) where
  top : Int
  bottom : Int
  cur : Nat
  heap : Nat → Arr T
  fresh : Nat
  own : Own T
  thf : Nat → Thief T

/-- What can be seen from outside: calls and returns. -/
inductive Ev (T : Type)
  | callPush (x : T)
  | retPush
  | callPop
  | retPop (r : Option T)
  | callSteal (i : Nat)
  | retSteal (i : Nat) (r : Option T)

/-- The constructor (wsq.hpp 135-143), with capacity 2^k. -/
def init {T} (k : Nat) (junk : Nat → T) : St T :=
  { top := 0, bottom := 0, cur := 0, heap := fun _ => ⟨2 ^ k, junk⟩, fresh := 1, own := .idle, thf := fun _ => .idle }

variable {T : Type}

/-- One step: a shared access of one thread, a call or a return. -/
inductive Step : St T → Option (Ev T) → St T → Prop
  -- push (wsq.hpp 171-189)
  | callPush {s x} : s.own = .idle → Step s (some (.callPush x)) { s with own := .push0 x }
  | push0 {s o} : s.own = .push0 o → Step s none { s with own := .push1 o s.bottom }
  | push1 {s o b} : s.own = .push1 o b → Step s none { s with own := .push2 o b s.top }
  | push2_room {s o b t} : s.own = .push2 o b t → ¬ (((s.heap s.cur).cap : Int) - 1 < b - t) →
      Step s none { s with own := .push3 o b s.cur }
  | push2_full {s o b t junk} : s.own = .push2 o b t → ((s.heap s.cur).cap : Int) - 1 < b - t →
      Step s none { s with
        heap := Function.update s.heap s.fresh
          (copyLoop (s.heap s.cur) t (b - t).toNat ⟨2 * (s.heap s.cur).cap, junk⟩)
        fresh := s.fresh + 1
        own := .push2r o b t s.fresh }
  | push2r {s o b t n} : s.own = .push2r o b t n → Step s none { s with cur := n, own := .push3 o b n }
  | push3 {s o b a} : s.own = .push3 o b a →
      Step s none { s with heap := Function.update s.heap a ((s.heap a).put b o), own := .push4 o b }
  | push4 {s o b} : s.own = .push4 o b → Step s none { s with bottom := b + 1, own := .pushR }
  | retPush {s} : s.own = .pushR → Step s (some .retPush) { s with own := .idle }
  -- pop (wsq.hpp 192-219)
  | callPop {s} : s.own = .idle → Step s (some .callPop) { s with own := .pop0 }
  | pop0 {s} : s.own = .pop0 → Step s none { s with own := .pop1 (s.bottom - 1) s.cur }
  | pop1 {s b a} : s.own = .pop1 b a → Step s none { s with bottom := b, own := .pop2 b a }
  | pop2 {s b a} : s.own = .pop2 b a → Step s none { s with own := .pop3 b a s.top }
  | pop3_lt {s b a t} : s.own = .pop3 b a t → t < b →
      Step s none { s with own := .popR (some ((s.heap a).get b)) }
  | pop3_eq {s b a t} : s.own = .pop3 b a t → t = b → Step s none { s with own := .pop4 b t ((s.heap a).get b) }
  | pop3_gt {s b a t} : s.own = .pop3 b a t → b < t → Step s none { s with own := .pop5 b none }
  | pop4_ok {s b t x} : s.own = .pop4 b t x → s.top = t →
      Step s none { s with top := t + 1, own := .pop5 b (some x) }
  | pop4_fail {s b t x} : s.own = .pop4 b t x → s.top ≠ t → Step s none { s with own := .pop5 b none }
  | pop5 {s b r} : s.own = .pop5 b r → Step s none { s with bottom := b + 1, own := .popR r }
  | retPop {s r} : s.own = .popR r → Step s (some (.retPop r)) { s with own := .idle }
  -- steal (wsq.hpp 231-250)
  | callSteal {s i} : s.thf i = .idle → Step s (some (.callSteal i)) { s with thf := Function.update s.thf i .s0 }
  | s0 {s i} : s.thf i = .s0 → Step s none { s with thf := Function.update s.thf i (.s1 s.top) }
  | s1_lt {s i t} : s.thf i = .s1 t → t < s.bottom → Step s none { s with thf := Function.update s.thf i (.s2 t) }
  | s1_ge {s i t} : s.thf i = .s1 t → ¬ t < s.bottom →
      Step s none { s with thf := Function.update s.thf i (.sR none) }
  | s2 {s i t} : s.thf i = .s2 t → Step s none { s with thf := Function.update s.thf i (.s3 t s.cur) }
  | s3 {s i t a} : s.thf i = .s3 t a →
      Step s none { s with thf := Function.update s.thf i (.s4 t ((s.heap a).get t)) }
  | s4_ok {s i t x} : s.thf i = .s4 t x → s.top = t →
      Step s none { s with top := t + 1, thf := Function.update s.thf i (.sR (some x)) }
  | s4_fail {s i t x} : s.thf i = .s4 t x → s.top ≠ t →
      Step s none { s with thf := Function.update s.thf i (.sR none) }
  | retSteal {s i r} : s.thf i = .sR r →
      Step s (some (.retSteal i r)) { s with thf := Function.update s.thf i .idle }

/-- A run with the calls and returns it shows, in order. -/
inductive Run (s : St T) : List (Ev T) → St T → Prop
  | nil : Run s [] s
  | tau {tr s1 s2} : Run s tr s1 → Step s1 none s2 → Run s tr s2
  | vis {tr s1 s2 e} : Run s tr s1 → Step s1 (some e) s2 → Run s (tr ++ [e]) s2

/-! ## Specification: a double-ended queue whose operations are atomic -/

namespace Spec

/-- The owner's call: not yet taken effect, or taken effect with a result. -/
inductive Own (T : Type)
  | idle
  | pushing (x : T)
  | pushed
  | popping
  | popped (r : Option T)

/-- A thief's call. -/
inductive Thief (T : Type)
  | idle
  | stealing
  | stolen (r : Option T)

structure St (T : Type) where
  d : List T
  own : Own T
  thf : Nat → Thief T

def init {T} : St T := ⟨[], .idle, fun _ => .idle⟩

/-- Every operation takes effect in one atomic step between its call and its return. -/
inductive Step : St T → Option (Ev T) → St T → Prop
  | callPush {s x} : s.own = .idle → Step s (some (.callPush x)) { s with own := .pushing x }
  | push {s x} : s.own = .pushing x → Step s none { s with d := s.d ++ [x], own := .pushed }
  | retPush {s} : s.own = .pushed → Step s (some .retPush) { s with own := .idle }
  | callPop {s} : s.own = .idle → Step s (some .callPop) { s with own := .popping }
  | pop {s d x} : s.own = .popping → s.d = d ++ [x] → Step s none { s with d := d, own := .popped (some x) }
  | popEmpty {s} : s.own = .popping → s.d = [] → Step s none { s with own := .popped none }
  | retPop {s r} : s.own = .popped r → Step s (some (.retPop r)) { s with own := .idle }
  | callSteal {s i} : s.thf i = .idle → Step s (some (.callSteal i)) { s with thf := Function.update s.thf i .stealing }
  | steal {s i x d} : s.thf i = .stealing → s.d = x :: d →
      Step s none { s with d := d, thf := Function.update s.thf i (.stolen (some x)) }
  /-- a steal may fail, "not necessary empty" (wsq.hpp 122) -/
  | stealFail {s i} : s.thf i = .stealing → Step s none { s with thf := Function.update s.thf i (.stolen none) }
  | retSteal {s i r} : s.thf i = .stolen r → Step s (some (.retSteal i r)) { s with thf := Function.update s.thf i .idle }

inductive Run (s : St T) : List (Ev T) → St T → Prop
  | nil : Run s [] s
  | tau {tr s1 s2} : Run s tr s1 → Step s1 none s2 → Run s tr s2
  | vis {tr s1 s2 e} : Run s tr s1 → Step s1 (some e) s2 → Run s (tr ++ [e]) s2

end Spec

end QDD.Wsq
