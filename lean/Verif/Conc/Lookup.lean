import Verif.Core.Table
import Mathlib.Logic.Function.Basic
/-!
# `CHashTable::lookup` at the level of single shared accesses (include/table.hpp 37-135, `isMT` build)

Any number of threads intern nodes: `getNode`, fill in the fields, `lookup`. Every access to the bucket heads,
to the lock flags and to nodes that other threads can reach is one step; memory is sequentially consistent (the
lock is acquire/release, and everything shared is accessed under it).
-/

namespace QDD.Lookup
variable {N : Type} [TNode N]

/-- A bucket: `_tables[v]._table[key]`. -/
abbrev Bkt := Int × Nat

/-- Where a thread is. `nd` is the content it interns, `p` its node. Comments give the next access. -/
inductive Pc (N : Type)
  | idle
  | get (nd : N)                          -- 37-61 getNode, then the fields are written
  | acq (nd : N) (p : Nat)                -- 102 test_and_set
  | head (nd : N) (p : Nat)               -- 104 load head, 106 test
  | put (nd : N) (p : Nat)                -- 107 store head
  | cmp (nd : N) (p c : Nat)              -- 115 compare *node with *current
  | prev (nd : N) (p c : Nat)             -- 125 load current->previous
  | link0 (nd : N) (p : Nat)              -- 128 load head
  | link1 (nd : N) (p : Nat) (h : Option Nat)  -- 128 store node->previous
  | link2 (nd : N) (p : Nat)              -- 129 load head
  | link3 (nd : N) (p : Nat) (h : Option Nat)  -- 129 store head->next
  | link4 (nd : N) (p : Nat)              -- 130 store head
  | give (nd : N) (p c : Nat)             -- 118 returnNode(node)
  | rel (nd : N) (r : Nat)                -- 109, 121, 132 clear
  | done (r : Nat)                        -- return

/-- Memory: the fields of the nodes (`val` stands for level and children together), heads, locks, and per thread
the head of its free list (`available`). `fresh` is the first address of chunk memory never handed out. -/
structure St (N : Type) where
  val : Nat → Option N
  previous : Nat → Option Nat
  next : Nat → Option Nat
  hd : Bkt → Option Nat
  locked : Bkt → Bool
  avail : Nat → Option Nat
  fresh : Nat
  pc : Nat → Pc N

inductive Ev (N : Type)
  | call (t : Nat) (nd : N)
  | ret (t : Nat) (p : Nat)
  | fault

def init : St N :=
  { val := fun _ => none, previous := fun _ => none, next := fun _ => none, hd := fun _ => none,
    locked := fun _ => false, avail := fun _ => none, fresh := 0, pc := fun _ => .idle }

/-- The bucket of a content (table.hpp 99-100). -/
def bkt (hash : N → Nat) (nd : N) : Bkt := (TNode.var nd, hash nd % NBUCKETS)

def St.go (s : St N) (t : Nat) (p : Pc N) : St N := { s with pc := Function.update s.pc t p }

inductive Step (hash : N → Nat) : St N → Option (Ev N) → St N → Prop
  | call {s t nd} : s.pc t = .idle → Step hash s (some (.call t nd)) (s.go t (.get nd))
  /-- `getNode` from the free list (41-46), then the fields: all private to the thread. -/
  | getOld {s t nd p} : s.pc t = .get nd → s.avail t = some p →
      Step hash s none { s with
        avail := Function.update s.avail t (s.next p)
        next := Function.update s.next p none
        val := Function.update s.val p (some nd)
        pc := Function.update s.pc t (.acq nd p) }
  /-- `getNode` from chunk memory (48-60); `previous` is null there (default member initialisers, dd.h 218-219 and likewise in mNode). -/
  | getNew {s t nd} : s.pc t = .get nd → s.avail t = none →
      Step hash s none { s with
        fresh := s.fresh + 1
        next := Function.update s.next s.fresh none
        previous := Function.update s.previous s.fresh none
        val := Function.update s.val s.fresh (some nd)
        pc := Function.update s.pc t (.acq nd s.fresh) }
  /-- The spin lock (102): a failed attempt changes nothing. -/
  | spin {s t nd p} : s.pc t = .acq nd p → s.locked (bkt hash nd) = true → Step hash s none s
  | acq {s t nd p} : s.pc t = .acq nd p → s.locked (bkt hash nd) = false →
      Step hash s none { s with
        locked := Function.update s.locked (bkt hash nd) true
        pc := Function.update s.pc t (.head nd p) }
  | headNull {s t nd p} : s.pc t = .head nd p → s.hd (bkt hash nd) = none → Step hash s none (s.go t (.put nd p))
  | headSome {s t nd p c} : s.pc t = .head nd p → s.hd (bkt hash nd) = some c →
      Step hash s none (s.go t (.cmp nd p c))
  | put {s t nd p} : s.pc t = .put nd p →
      Step hash s none { s with
        hd := Function.update s.hd (bkt hash nd) (some p)
        pc := Function.update s.pc t (.rel nd p) }
  | cmpHit {s t nd p c nc} : s.pc t = .cmp nd p c → s.val c = some nc → TNode.eqv nd nc = true →
      TNode.var nc = TNode.var nd → Step hash s none (s.go t (.give nd p c))
  /-- The assertion at 116. -/
  | cmpAssert {s t nd p c nc} : s.pc t = .cmp nd p c → s.val c = some nc → TNode.eqv nd nc = true →
      TNode.var nc ≠ TNode.var nd → Step hash s (some .fault) (s.go t .idle)
  /-- Reading a node that was never written. -/
  | cmpBad {s t nd p c} : s.pc t = .cmp nd p c → s.val c = none → Step hash s (some .fault) (s.go t .idle)
  | cmpMiss {s t nd p c nc} : s.pc t = .cmp nd p c → s.val c = some nc → TNode.eqv nd nc = false →
      Step hash s none (s.go t (.prev nd p c))
  | prevSome {s t nd p c c'} : s.pc t = .prev nd p c → s.previous c = some c' →
      Step hash s none (s.go t (.cmp nd p c'))
  | prevNull {s t nd p c} : s.pc t = .prev nd p c → s.previous c = none → Step hash s none (s.go t (.link0 nd p))
  | link0 {s t nd p} : s.pc t = .link0 nd p → Step hash s none (s.go t (.link1 nd p (s.hd (bkt hash nd))))
  | link1 {s t nd p h} : s.pc t = .link1 nd p h →
      Step hash s none { s with
        previous := Function.update s.previous p h
        pc := Function.update s.pc t (.link2 nd p) }
  | link2 {s t nd p} : s.pc t = .link2 nd p → Step hash s none (s.go t (.link3 nd p (s.hd (bkt hash nd))))
  | link3 {s t nd p h} : s.pc t = .link3 nd p (some h) →
      Step hash s none { s with
        next := Function.update s.next h (some p)
        pc := Function.update s.pc t (.link4 nd p) }
  /-- `head->next` through a null head. -/
  | link3Bad {s t nd p} : s.pc t = .link3 nd p none → Step hash s (some .fault) (s.go t .idle)
  | link4 {s t nd p} : s.pc t = .link4 nd p →
      Step hash s none { s with
        hd := Function.update s.hd (bkt hash nd) (some p)
        pc := Function.update s.pc t (.rel nd p) }
  /-- `returnNode` (63-77): private to the thread. -/
  | give {s t nd p c} : s.pc t = .give nd p c →
      Step hash s none { s with
        val := Function.update s.val p ((s.val p).map (TNode.setVar · (-2)))
        next := Function.update s.next p (s.avail t)
        previous := Function.update s.previous p none
        avail := Function.update s.avail t (some p)
        pc := Function.update s.pc t (.rel nd c) }
  | rel {s t nd r} : s.pc t = .rel nd r →
      Step hash s none { s with
        locked := Function.update s.locked (bkt hash nd) false
        pc := Function.update s.pc t (.done r) }
  | ret {s t r} : s.pc t = .done r → Step hash s (some (.ret t r)) (s.go t .idle)

/-- A run from the empty table with the calls and returns it shows, in order. -/
inductive Run (hash : N → Nat) : List (Ev N) → St N → Prop
  | nil : Run hash [] init
  | tau {tr s s'} : Run hash tr s → Step hash s none s' → Run hash tr s'
  | vis {tr s s' e} : Run hash tr s → Step hash s (some e) s' → Run hash (tr ++ [e]) s'

/-! ## Specification: a dictionary of interned contents whose operation is atomic -/
namespace Spec

inductive Pc (N : Type)
  | idle
  | called (nd : N)
  | done (r : Nat)

/-- `reg`: the interned contents with their addresses, newest first. -/
structure St (N : Type) where
  reg : List (Nat × N)
  pc : Nat → Pc N

def init : St N := ⟨[], fun _ => .idle⟩

/-- The newest interned content that the table considers the same as `nd`: same bucket, `operator==`. -/
def find (hash : N → Nat) (reg : List (Nat × N)) (nd : N) : Option (Nat × N) :=
  reg.find? fun x => decide (bkt hash x.2 = bkt hash nd) && TNode.eqv nd x.2

inductive Step (hash : N → Nat) : St N → Option (Ev N) → St N → Prop
  | call {s t nd} : s.pc t = .idle → Step hash s (some (.call t nd)) { s with pc := Function.update s.pc t (.called nd) }
  /-- The whole effect of one call, at one instant: the existing node … -/
  | hit {s t nd x} : s.pc t = .called nd → find hash s.reg nd = some x →
      Step hash s none { s with pc := Function.update s.pc t (.done x.1) }
  /-- … or a new address. -/
  | new {s t nd p} : s.pc t = .called nd → find hash s.reg nd = none → (∀ x ∈ s.reg, x.1 ≠ p) →
      Step hash s none ⟨(p, nd) :: s.reg, Function.update s.pc t (.done p)⟩
  | ret {s t r} : s.pc t = .done r → Step hash s (some (.ret t r)) { s with pc := Function.update s.pc t .idle }

inductive Run (hash : N → Nat) : List (Ev N) → St N → Prop
  | nil : Run hash [] init
  | tau {tr s s'} : Run hash tr s → Step hash s none s' → Run hash tr s'
  | vis {tr s s' e} : Run hash tr s → Step hash s (some e) s' → Run hash (tr ++ [e]) s'

end Spec
end QDD.Lookup
