import Verif.Core.State
/-!
# Decision diagram operations (src/dd.cpp 61-175, 284-310, 860-1482)
-/

namespace QDD
variable {W : Type} [WOps W] (env : Env W)

/-- `normalizeV` (dd.cpp 104-143) on the node at `p` with children `c0`, `c1`, level `q`, root weight 1. -/
def normalizeV (tid : Nat) (q : Int) (p : Nat) (c0 c1 : Edge W) (t : UTable (VNode W)) :
    Except Err (Edge W × UTable (VNode W)) :=
  if WOps.az c0.w && WOps.az c1.w then .ok (zeroE, t.returnNode tid p) else
  let one : Bool := WOps.lt c0.w c1.w        -- std::max_element picks child 1
  let mw := if one then c1.w else c0.w
  let nw := WOps.mul mw WOps.one
  if WOps.az nw then .ok (zeroE, t.returnNode tid p) else
  let nw := if WOps.aone nw then WOps.one else nw
  let small (c : Edge W) : Edge W :=
    let r := WOps.div c.w mw
    if WOps.aone r then ⟨WOps.one, c.n⟩ else if WOps.az r then zeroE else ⟨r, c.n⟩
  let nd : VNode W := if one then ⟨q, small c0, ⟨WOps.one, c1.n⟩⟩ else ⟨q, ⟨WOps.one, c0.n⟩, small c1⟩
  match (t.write p nd).lookup env.hv tid p with
  | .error e => .error e
  | .ok (c, t') => .ok (⟨nw, some c⟩, t')

/-- `makeVEdge` (dd.cpp 160-175) as one atomic access of thread `tid`: the only shared data it touches is
the bucket, under its lock (see `Verif/Conc/Lookup.lean`); the allocator is thread local. -/
def makeVEdge (tid : Nat) (q : Int) (c0 c1 : Edge W) (s : St W) : Except Err (Edge W × St W) :=
  let (p, t) := s.vt.getNode tid
  let t := t.write p ⟨q, c0, c1⟩
  match normalizeV env tid q p c0 c1 t with
  | .error e => .error e
  | .ok (e, t') => match evar t'.mem e.n with
    | .error er => .error er
    | .ok v => if v = q ∨ e.n = none then .ok (e, { s with vt := t' }) else .error .assert

/-- `std::max_element` with `norm2(lhs.w) < norm2(rhs.w)` over the four children (dd.cpp 69-72): the first
largest weight. -/
def maxW4 (a b c d : W) : W :=
  let m := if WOps.lt a b then b else a
  let m := if WOps.lt m c then c else m
  if WOps.lt m d then d else m

/-- `normalizeM` (dd.cpp 61-102). -/
def normalizeM (tid : Nat) (q : Int) (p : Nat) (c0 c1 c2 c3 : Edge W) (t : UTable (MNode W)) :
    Except Err (Edge W × UTable (MNode W)) :=
  if WOps.nz c0.w && WOps.nz c1.w && WOps.nz c2.w && WOps.nz c3.w then .ok (zeroE, t.returnNode tid p) else
  let mw := maxW4 c0.w c1.w c2.w c3.w
  let nw := WOps.mul mw WOps.one
  if WOps.az nw then .ok (zeroE, t.returnNode tid p) else
  let nw := if WOps.aone nw then WOps.one else nw
  let f (c : Edge W) : Edge W :=
    let r := WOps.div c.w mw
    if WOps.az r then zeroE else if WOps.aone r then ⟨WOps.one, c.n⟩ else ⟨r, c.n⟩
  match (t.write p ⟨q, f c0, f c1, f c2, f c3⟩).lookup env.hm tid p with
  | .error e => .error e
  | .ok (c, t') => match evar t'.mem (some c) with
    | .error e => .error e
    | .ok v => if v ≥ -1 then .ok (⟨nw, some c⟩, t') else .error .assert

/-- The identity-stripping test of `makeMEdge` (dd.cpp 147). -/
def strips (c0 c1 c2 c3 : Edge W) : Bool :=
  (c0.n == c3.n) && WOps.az c1.w && WOps.az c2.w && WOps.ae c0.w c3.w

/-- `makeMEdge` (dd.cpp 145-158), one atomic access. -/
def makeMEdge (tid : Nat) (q : Int) (c0 c1 c2 c3 : Edge W) (s : St W) : Except Err (Edge W × St W) :=
  if strips c0 c1 c2 c3 then .ok (⟨c0.w, c0.n⟩, s) else
  let (p, t) := s.mt.getNode tid
  let t := t.write p ⟨q, c0, c1, c2, c3⟩
  match normalizeM env tid q p c0 c1 c2 c3 t with
  | .error e => .error e
  | .ok (e, t') => .ok (e, { s with mt := t' })

open Prog

abbrev P (W : Type) (α : Type) := Prog (St W) α

/-- `makeVEdge` as an atomic program step. -/
def mkV (q : Int) (c0 c1 : Edge W) : P W (Edge W) := atom fun tid s => makeVEdge env tid q c0 c1 s
/-- `makeMEdge` as an atomic program step. -/
def mkM (q : Int) (c0 c1 c2 c3 : Edge W) : P W (Edge W) := atom fun tid s => makeMEdge env tid q c0 c1 c2 c3 s

/-- Reading a vector node through its pointer (`node->v`, `node->getEdge(i)`); the terminal node reads as
level -1 with no children used.  All fields are read at once: registered nodes are immutable. -/
def readV (n : Option Nat) : P W (VNode W) := atom fun _ s =>
  match n with
  | none => .ok (⟨-1, zeroE, zeroE⟩, s)
  | some p => match s.vt.mem p with
    | none => .error .badNode
    | some nd => .ok (nd, s)

/-- Reading a matrix node through its pointer. -/
def readM (n : Option Nat) : P W (MNode W) := atom fun _ s =>
  match n with
  | none => .ok (⟨-1, zeroE, zeroE, zeroE, zeroE⟩, s)
  | some p => match s.mt.mem p with
    | none => .error .badNode
    | some nd => .ok (nd, s)

/-- `_aCache.find` on vectors; also returns which thread's cache was consulted (`_aCaches.local()`,
dd.cpp 1125-1128). -/
def findAV (l r : Edge W) : P W (Option (Edge W) × Nat) := atom fun tid s =>
  match (s.av tid).find s.vt.mem env.hav l r with
  | .error e => .error e
  | .ok x => .ok ((x, tid), s)

/-- `_aCache.set` on vectors through the captured reference `c` (dd.cpp 1183). -/
def setAV (c : Nat) (l r res : Edge W) : P W Unit := atom fun _ s =>
  match (s.av c).set s.vt.mem env.hav l r res with
  | .error e => .error e
  | .ok x => .ok ((), { s with av := upd s.av c x })

/-- `_aCache.find` on matrices (dd.cpp 890-893). -/
def findAM (l r : Edge W) : P W (Option (Edge W) × Nat) := atom fun tid s =>
  match (s.am tid).find s.mt.mem env.ham l r with
  | .error e => .error e
  | .ok x => .ok ((x, tid), s)

/-- `_aCache.set` on matrices (dd.cpp 937). -/
def setAM (c : Nat) (l r res : Edge W) : P W Unit := atom fun _ s =>
  match (s.am c).set s.mt.mem env.ham l r res with
  | .error e => .error e
  | .ok x => .ok ((), { s with am := upd s.am c x })

/-- `_mCache.find(mNode*, vNode*)` (dd.cpp 1384-1389). -/
def findPV (l : Nat) (r : Option Nat) : P W (Option (Edge W) × Nat) := atom fun tid s =>
  match (s.cv tid).find s.mt.mem s.vt.mem env.mur env.junkMV l r with
  | .error e => .error e
  | .ok (x, c) => .ok ((x, tid), { s with cv := upd s.cv tid c })

/-- `_mCache.set(mNode*, vNode*, ..)` (dd.cpp 1459). -/
def setPV (c : Nat) (l : Nat) (r : Option Nat) (res : Edge W) : P W Unit := atom fun _ s =>
  match (s.cv c).set s.mt.mem env.mur env.junkMV l r res with
  | .error e => .error e
  | .ok x => .ok ((), { s with cv := upd s.cv c x })

/-- `_mCache.find(mNode*, mNode*)` (dd.cpp 973-977). -/
def findPM (l : Nat) (r : Option Nat) : P W (Option (Edge W) × Nat) := atom fun tid s =>
  match (s.cm tid).find s.mt.mem s.mt.mem env.mur env.junkMM l r with
  | .error e => .error e
  | .ok (x, c) => .ok ((x, tid), { s with cm := upd s.cm tid c })

/-- `_mCache.set(mNode*, mNode*, ..)` (dd.cpp 1037). -/
def setPM (c : Nat) (l : Nat) (r : Option Nat) (res : Edge W) : P W Unit := atom fun _ s =>
  match (s.cm c).set s.mt.mem env.mur env.junkMM l r res with
  | .error e => .error e
  | .ok x => .ok ((), { s with cm := upd s.cm c x })

/-- The operand of the recursive call for child `b` in `vv_add2` (dd.cpp 1148-1159). -/
def vAddArg (cv : Int) (nd : VNode W) (e : Edge W) (b : Bool) : Edge W :=
  if nd.v = cv ∧ e.n ≠ none then ⟨WOps.mul e.w (nd.child b).w, (nd.child b).n⟩ else e

/-- `vv_add2` (dd.cpp 1105-1186); level `k+1` is `current_var = k`, level 0 is `current_var = -1`.
`fk k` says whether the calls below `current_var = k` are forked (`isMT` and `current_var > LIMIT`). -/
def vvAdd2 (fk : Nat → Bool) : Nat → Edge W → Edge W → P W (Edge W)
  | 0, l, r =>
    if WOps.az l.w then (if WOps.az r.w then pure zeroE else pure r) else
    if WOps.az r.w then pure l else
    if l.n = none ∧ r.n = none then pure ⟨WOps.add l.w r.w, none⟩ else fail .assert
  | k + 1, l, r =>
    if WOps.az l.w then (if WOps.az r.w then pure zeroE else pure r) else
    if WOps.az r.w then pure l else
    if l.n = r.n then pure ⟨WOps.add l.w r.w, l.n⟩ else do
    let (res, c) ← findAV env l r
    match res with
    | some e => if WOps.az e.w then pure zeroE else pure e
    | none => do
      let ln ← readV l.n
      let rn ← readV r.n
      let (e0, e1) ← fork (fk k)
        (vvAdd2 fk k (vAddArg k ln l false) (vAddArg k rn r false))
        (vvAdd2 fk k (vAddArg k ln l true) (vAddArg k rn r true))
      let res ← mkV env k e0 e1
      setAV env c l r res
      pure res

/-- `vv_add` (dd.cpp 1188-1194). -/
def vvAdd (fk : Nat → Bool) (l r : Edge W) : P W (Edge W) :=
  if l.n = none ∧ r.n = none then pure ⟨WOps.add l.w r.w, none⟩ else do
  let rn ← readV r.n
  vvAdd2 env fk (rn.v + 1).toNat l r

/-- The operand for block `(row, col)` in `mm_add2` (dd.cpp 912-931). -/
def mAddArg (cv : Int) (nd : MNode W) (e : Edge W) (r c : Bool) : Edge W :=
  if nd.v = cv ∧ e.n ≠ none then ⟨WOps.mul e.w (nd.child r c).w, (nd.child r c).n⟩
  else if r ≠ c then zeroE else e

/-- `mm_add2` (dd.cpp 869-940). -/
def mmAdd2 : Nat → Edge W → Edge W → P W (Edge W)
  | 0, l, r =>
    if eeq l zeroE || eeq r zeroE then (if eeq l zeroE then pure r else pure l) else
    if WOps.az l.w then pure r else if WOps.az r.w then pure l else
    if l.n = none ∧ r.n = none then pure ⟨WOps.add l.w r.w, none⟩ else fail .assert
  | k + 1, l, r =>
    if eeq l zeroE || eeq r zeroE then (if eeq l zeroE then pure r else pure l) else
    if WOps.az l.w then pure r else if WOps.az r.w then pure l else
    if l.n = r.n then pure ⟨WOps.add l.w r.w, l.n⟩ else do
    let (res, c) ← findAM env l r
    match res with
    | some e => if WOps.az e.w then pure zeroE else pure e
    | none => do
      let ln ← readM l.n
      let rn ← readM r.n
      let e0 ← mmAdd2 k (mAddArg k ln l false false) (mAddArg k rn r false false)
      let e1 ← mmAdd2 k (mAddArg k ln l false true) (mAddArg k rn r false true)
      let e2 ← mmAdd2 k (mAddArg k ln l true false) (mAddArg k rn r true false)
      let e3 ← mmAdd2 k (mAddArg k ln l true true) (mAddArg k rn r true true)
      let res ← mkM env k e0 e1 e2 e3
      setAM env c l r res
      pure res

/-- `rootVar` (dd.cpp 860-867) on the levels already read (`-1` for terminal). -/
def rootVar (ln rn : Option Nat) (lv rv : Int) : Int :=
  if ln = none ∨ (rn ≠ none ∧ rv > lv) then rv else lv

/-- `mm_add` (dd.cpp 942-949). -/
def mmAdd (l r : Edge W) : P W (Edge W) :=
  if l.n = none ∧ r.n = none then pure ⟨WOps.add l.w r.w, none⟩ else do
  let ln ← readM l.n
  let rn ← readM r.n
  mmAdd2 env (rootVar l.n r.n ln.v rn.v + 1).toNat l r

/-- The operand for block `(row, col)` in `mm_multiply2`/`mv_multiply2` (dd.cpp 1009-1029, 1421-1428):
unweighted child, or identity block around the copy with weight 1. -/
def mMulArg (cv : Int) (nd : MNode W) (e : Edge W) (r c : Bool) : Edge W :=
  if nd.v = cv ∧ e.n ≠ none then nd.child r c
  else if r ≠ c then zeroE else ⟨WOps.one, e.n⟩

/-- `mm_multiply2` (dd.cpp 951-1043). -/
def mmMul2 : Nat → Edge W → Edge W → P W (Edge W)
  | lvl, l, r =>
    if eeq l zeroE || eeq r zeroE then pure zeroE else
    match l.n with
    | none => pure ⟨WOps.mul r.w l.w, r.n⟩
    | some lp => match r.n with
      | none => pure ⟨WOps.mul l.w r.w, l.n⟩
      | some rp =>
        if WOps.az l.w || WOps.az r.w then pure zeroE else
        match lvl with
        | 0 => fail .assert
        | k + 1 => do
          let (res, c) ← findPM env lp (some rp)
          match res with
          | some e => if WOps.az e.w then pure zeroE else
            let w := WOps.mul (WOps.mul e.w l.w) r.w
            if WOps.az w then pure zeroE else pure ⟨w, e.n⟩
          | none => do
            let ln ← readM l.n
            let rn ← readM r.n
            if ln.v ≤ k ∧ rn.v ≤ k then do
              let a := mMulArg k ln l
              let b := mMulArg k rn r
              let p ← mmMul2 k (a false false) (b false false)
              let q ← mmMul2 k (a false true) (b true false)
              let e0 ← mmAdd2 env k p q
              let p ← mmMul2 k (a false false) (b false true)
              let q ← mmMul2 k (a false true) (b true true)
              let e1 ← mmAdd2 env k p q
              let p ← mmMul2 k (a true false) (b false false)
              let q ← mmMul2 k (a true true) (b true false)
              let e2 ← mmAdd2 env k p q
              let p ← mmMul2 k (a true false) (b false true)
              let q ← mmMul2 k (a true true) (b true true)
              let e3 ← mmAdd2 env k p q
              let res ← mkM env k e0 e1 e2 e3
              setPM env c lp (some rp) res
              let w := WOps.mul (WOps.mul res.w l.w) r.w
              if WOps.az w then pure zeroE else
              if WOps.aone w then pure ⟨WOps.one, res.n⟩ else pure ⟨w, res.n⟩
            else fail .assert

/-- `mm_multiply` (dd.cpp 1045-1053). -/
def mmMul (l r : Edge W) : P W (Edge W) :=
  if l.n = none ∧ r.n = none then pure ⟨WOps.mul l.w r.w, none⟩ else do
  let ln ← readM l.n
  let rn ← readM r.n
  mmMul2 env (rootVar l.n r.n ln.v rn.v + 1).toNat l r

/-- The vector operand in `mv_multiply2` (dd.cpp 1430-1434). -/
def vMulArg (cv : Int) (nd : VNode W) (e : Edge W) (b : Bool) : Edge W :=
  if nd.v = cv ∧ e.n ≠ none then nd.child b else ⟨WOps.one, e.n⟩

/-- `mv_multiply2` (dd.cpp 1366-1468). -/
def mvMul2 (fk : Nat → Bool) : Nat → Edge W → Edge W → P W (Edge W)
  | lvl, l, r =>
    if eeq l zeroE then pure zeroE else
    match l.n with
    | none => pure ⟨WOps.mul r.w l.w, r.n⟩
    | some lp =>
      if WOps.az l.w || WOps.az r.w then pure zeroE else
      match lvl with
      | 0 => fail .assert
      | k + 1 => do
        let (res, c) ← findPV env lp r.n
        match res with
        | some e => if WOps.az e.w then pure zeroE else
          let w := WOps.mul (WOps.mul e.w l.w) r.w
          if WOps.az w then pure zeroE else pure ⟨w, e.n⟩
        | none => do
          let ln ← readM l.n
          let rn ← readV r.n
          let a := mMulArg k ln l
          let b := vMulArg k rn r
          let (p, q) ← fork (fk k) (mvMul2 fk k (a false false) (b false)) (mvMul2 fk k (a false true) (b true))
          let e0 ← vvAdd2 env fk k p q
          let (p, q) ← fork (fk k) (mvMul2 fk k (a true false) (b false)) (mvMul2 fk k (a true true) (b true))
          let e1 ← vvAdd2 env fk k p q
          let res ← mkV env k e0 e1
          setPV env c lp r.n res
          let w := WOps.mul (WOps.mul res.w l.w) r.w
          if WOps.az w then pure zeroE else
          if WOps.aone w then pure ⟨WOps.one, res.n⟩ else pure ⟨w, res.n⟩

/-- `mv_multiply` (dd.cpp 1470-1482).  `mt = false` is the serial build; in the MT build calls fork while
`current_var > LIMIT = getVar - MINUS` (dd.cpp 58-59, 1436, 1474). -/
def mvMul (mt : Bool) (l r : Edge W) : P W (Edge W) :=
  if l.n = none ∧ r.n = none then pure ⟨WOps.mul l.w r.w, none⟩ else do
  let rn ← readV r.n
  mvMul2 env (fun k => mt && decide ((k : Int) > rn.v - 6)) (rn.v + 1).toNat l r

end QDD
