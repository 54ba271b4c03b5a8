import Verif.Core.Prog
import Verif.Core.Table
/-!
# Nodes, edges, caches and the engine state
-/

namespace QDD

/-- An edge: `vEdge` (dd.h 148-180) and `mEdge` (dd.h 223-259): a weight and a node pointer; `none` is the
terminal node.  One type serves both, `VEdge`/`MEdge` are names for the two uses. -/
structure Edge (W : Type) where
  w : W
  n : Option Nat
  deriving DecidableEq, Repr

abbrev VEdge := Edge
abbrev MEdge := Edge

/-- `vNode` (dd.h 187-221): level and two children. `next`/`previous` live in the table model. -/
structure VNode (W : Type) where
  v : Int
  c0 : Edge W
  c1 : Edge W
  deriving DecidableEq, Repr

/-- `mNode` (dd.h 298-333): level and four children (row-major 2x2 blocks). -/
structure MNode (W : Type) where
  v : Int
  c0 : Edge W
  c1 : Edge W
  c2 : Edge W
  c3 : Edge W
  deriving DecidableEq, Repr

variable {W : Type} [WOps W]

/-- `vEdge::zero`, `mEdge::zero` (dd.cpp 46, 48). -/
def zeroE : Edge W := ⟨WOps.zero, none⟩
/-- `vEdge::one`, `mEdge::one` (dd.cpp 45, 47). -/
def oneE : Edge W := ⟨WOps.one, none⟩
/-- `operator==` on edges (dd.h 174-176, 246-250). -/
def eeq (a b : Edge W) : Bool := WOps.ae a.w b.w && (a.n == b.n)

/-- Child by index, `children[i]` (dd.h 205). -/
def VNode.child (nd : VNode W) (b : Bool) : Edge W := if b then nd.c1 else nd.c0
/-- Child by row and column bit, `children[(row << 1) | col]` (dd.h 315, dd.cpp 1010). -/
def MNode.child (nd : MNode W) (r c : Bool) : Edge W :=
  if r then (if c then nd.c3 else nd.c2) else (if c then nd.c1 else nd.c0)

/-- `vNode::operator==` (dd.h 209-211). -/
instance : TNode (VNode W) where
  var nd := nd.v
  setVar nd v := { nd with v := v }
  eqv a b := (a.v == b.v) && eeq a.c0 b.c0 && eeq a.c1 b.c1

/-- `mNode::operator==` (dd.h 319-321). -/
instance : TNode (MNode W) where
  var nd := nd.v
  setVar nd v := { nd with v := v }
  eqv a b := (a.v == b.v) && eeq a.c0 b.c0 && eeq a.c1 b.c1 && eeq a.c2 b.c2 && eeq a.c3 b.c3

@[simp] theorem VNode.tvar (nd : VNode W) : TNode.var nd = nd.v := rfl
@[simp] theorem MNode.tvar (nd : MNode W) : TNode.var nd = nd.v := rfl

/-- `getVar()` (dd.cpp 177-179): `-1` for the terminal node, a read of the node otherwise. -/
def evar {N : Type} [TNode N] (mem : Nat → Option N) (n : Option Nat) : Except Err Int :=
  match n with
  | none => .ok (-1)
  | some p => match mem p with
    | none => .error .badNode
    | some nd => .ok (TNode.var nd)

/-- An `AddCache` entry (cache.hpp 132-141) that has been set. -/
structure AEnt (W : Type) where
  lhs : Edge W
  rhs : Edge W
  res : Edge W

/-- One of the two tables of an `AddCache` (cache.hpp 170-176): `_tables[idx][lv]._table[key]`;
`none` stands for a null bucket or a bucket whose entry is not `valid`. -/
abbrev ACache (W : Type) := Int → Nat → Option (AEnt W)

/-- The operand swap of `find`/`set` (cache.hpp 41-43, 67-69): the larger level first. -/
def acOrder {N : Type} [TNode N] (mem : Nat → Option N) (l r : Edge W) :
    Except Err (Edge W × Edge W × Int) :=
  match evar mem l.n with
  | .error e => .error e
  | .ok lv => match evar mem r.n with
    | .error e => .error e
    | .ok rv => if lv < rv then .ok (r, l, rv) else .ok (l, r, lv)

/-- `AddCache::find` (cache.hpp 37-63, 211-256).  `none` models the returned `T{}` whose `n` is null. The
statistics counters are not modelled. -/
def ACache.find {N : Type} [TNode N] (mem : Nat → Option N) (h : Edge W → Edge W → Nat) (c : ACache W)
    (l r : Edge W) : Except Err (Option (Edge W)) :=
  match acOrder mem l r with
  | .error e => .error e
  | .ok (l, r, lv) =>
    if lv < 0 ∨ (NQUBITS : Int) ≤ lv then .error .oob else
    match c lv (h l r % NBUCKETS) with
    | none => .ok none
    | some e =>
      if eeq e.lhs l && eeq e.rhs r then
        match evar mem e.res.n with
        | .error e => .error e
        | .ok v => if v ≠ -2 then .ok (some e.res) else .ok none
      else .ok none

/-- `AddCache::set` (cache.hpp 64-89, 258-282). -/
def ACache.set {N : Type} [TNode N] (mem : Nat → Option N) (h : Edge W → Edge W → Nat) (c : ACache W)
    (l r res : Edge W) : Except Err (ACache W) :=
  match acOrder mem l r with
  | .error e => .error e
  | .ok (l, r, lv) =>
    if lv < 0 ∨ (NQUBITS : Int) ≤ lv then .error .oob else
    .ok (upd c lv (upd (c lv) (h l r % NBUCKETS) (some ⟨l, r, res⟩)))

/-- A `MulCache` entry (cache.hpp 396-407).  The result is a union without initialiser: before the first
`set` it is garbage (`res = none`), and `isNull` is what `result.n == nullptr` happens to read. -/
structure PEnt (W : Type) where
  lhs : Option Nat
  rhs : Option Nat
  res : Option (Edge W)
  isNull : Bool
  valid : Bool
  picked : Int

/-- One table of a `MulCache` (cache.hpp 437-443): `_tables[idx][lv]._table[key]`, a bucket of 4 entries. -/
abbrev PCache (W : Type) := Int → Nat → Option (List (PEnt W))

/-- A fresh bucket (cache.hpp 396-413, 452-468); `junk i` is the garbage seen by `result.n == nullptr`. -/
def freshBucket (W : Type) (junk : Nat → Bool) : List (PEnt W) :=
  (List.range 4).map fun i => ⟨none, none, none, junk i, false, 0⟩

/-- The search loop of `MulCache::find_in_bucket` (cache.hpp 481-503, 508-530): returns the result and the
updated entries (`picked`). -/
def bucketFind {N : Type} [TNode N] (mem : Nat → Option N) (l r : Option Nat) :
    List (PEnt W) → Except Err (Option (Edge W) × List (PEnt W))
  | [] => .ok (none, [])
  | e :: es =>
    if e.valid && e.lhs == l && e.rhs == r then
      match e.res with
      | none => .error .badNode
      | some x => match evar mem x.n with
        | .error er => .error er
        | .ok v => if v ≠ -2 then .ok (some x, { e with picked := e.picked + 1 } :: es)
            else .ok (none, { e with picked := 0 } :: es)
    else match bucketFind mem l r es with
      | .error er => .error er
      | .ok (x, es') => .ok (x, e :: es')

/-- `MulCache::find` (cache.hpp 301-326, 470-533); `mur` is `murmur_hash` of the left pointer, and
`_tables[idx][lhs->v]` is indexed by the left operand's level. -/
def PCache.find {N N' : Type} [TNode N] [TNode N'] (memL : Nat → Option N) (memR : Nat → Option N')
    (mur : Nat → Nat) (junk : Int → Nat → Nat → Bool) (c : PCache W) (l : Nat) (r : Option Nat) :
    Except Err (Option (Edge W) × PCache W) :=
  match evar memL (some l) with
  | .error e => .error e
  | .ok lv =>
    if lv < 0 ∨ (NQUBITS : Int) ≤ lv then .error .oob else
    let key := mur l % NBUCKETS
    match c lv key with
    | none => .ok (none, upd c lv (upd (c lv) key (some (freshBucket W (junk lv key)))))
    | some b => match bucketFind memR (some l) r b with
      | .error e => .error e
      | .ok (x, b') => .ok (x, upd c lv (upd (c lv) key (some b')))

/-- `MulCache::set(Entry&, ..)` (cache.hpp 535-556). -/
def PEnt.put (l r : Option Nat) (res : Edge W) : PEnt W := ⟨l, r, some res, false, true, 1⟩

/-- The first loop of `set_in_bucket` (cache.hpp 566-571): first entry with `result.n == nullptr`. -/
def putNull (l r : Option Nat) (res : Edge W) : List (PEnt W) → Option (List (PEnt W))
  | [] => none
  | e :: es => if e.isNull then some (PEnt.put l r res :: es)
      else (putNull l r res es).map (e :: ·)

/-- The victim search of `set_in_bucket` (cache.hpp 573-581): first entry with the smallest `picked`. -/
def minPicked : List (PEnt W) → Nat
  | [] => 0
  | e :: es => (es.foldl (fun (acc : Nat × Nat × Int) x =>
      if x.picked < acc.2.2 then (acc.1 + 1, acc.1 + 1, x.picked) else (acc.1 + 1, acc.2.1, acc.2.2))
      (0, 0, e.picked)).2.1

/-- `set_in_bucket` on the entries of a bucket (cache.hpp 564-605). -/
def bucketSet (l r : Option Nat) (res : Edge W) (b : List (PEnt W)) : List (PEnt W) :=
  match putNull l r res b with
  | some b' => b'
  | none => b.set (minPicked b) (PEnt.put l r res)

/-- `MulCache::set` (cache.hpp 328-352, 558-605). -/
def PCache.set {N : Type} [TNode N] (memL : Nat → Option N)
    (mur : Nat → Nat) (junk : Int → Nat → Nat → Bool) (c : PCache W) (l : Nat) (r : Option Nat)
    (res : Edge W) : Except Err (PCache W) :=
  match evar memL (some l) with
  | .error e => .error e
  | .ok lv =>
    if lv < 0 ∨ (NQUBITS : Int) ≤ lv then .error .oob else
    let key := mur l % NBUCKETS
    let b := (c lv key).getD (freshBucket W (junk lv key))
    .ok (upd c lv (upd (c lv) key (some (bucketSet (some l) r res b))))

/-- Everything the model leaves open: the hash functions (dd.h 267-291, 335-380; common.h 56-68) and the
contents of uninitialised cache memory.  Theorems hold for every `Env`. -/
structure Env (W : Type) where
  hv : VNode W → Nat
  hm : MNode W → Nat
  hav : Edge W → Edge W → Nat
  ham : Edge W → Edge W → Nat
  mur : Nat → Nat
  junkMV : Int → Nat → Nat → Bool
  junkMM : Int → Nat → Nat → Bool

/-- The global engine state (dd.cpp 36-56): `vUnique`, `mUnique`, and per thread the two tables of
`_aCache` (vv, mm) and the two used tables of `_mCache` (mv, mm).  In the serial build (or with
`CACHE_GLOBAL`) only thread 0's caches are used. -/
structure St (W : Type) where
  vt : UTable (VNode W)
  mt : UTable (MNode W)
  av : Nat → ACache W
  am : Nat → ACache W
  cv : Nat → PCache W
  cm : Nat → PCache W

/-- Program start. -/
def St.init : St W :=
  ⟨UTable.empty, UTable.empty, fun _ _ _ => none, fun _ _ _ => none, fun _ _ _ => none, fun _ _ _ => none⟩

end QDD
