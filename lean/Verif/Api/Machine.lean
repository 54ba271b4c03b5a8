import Verif.Api.Spec
import Verif.Core.DetProbs
import Verif.Core.Gc
/-!
# The engine as a machine driven by API calls

The model's counterpart of `Spec`: the same commands, executed by the modelled code on the modelled heap.
-/

set_option linter.unusedSectionVars false
set_option linter.unusedVariables false

namespace QDD.Api
open Spec Prog

variable {K : Type} [Field K] [LinearOrder K] [IsStrictOrderedRing K]

/-- Everything outside the tables and caches: the `probs` map (dd.cpp 57), the gc thresholds `GC_SIZE`,
`GC_SIZE_M` (dd.cpp 2361, 2409) and the edges the caller holds. -/
structure Data (K : Type) [Field K] where
  memo : Memo K
  thr : Nat
  thrM : Nat
  vs : List (Edge (C K))
  ms : List (Edge (C K))

/-- Build configuration and what the model leaves open: hash functions and uninitialised memory (`env`), the
multi-threaded build (`mt`), `std::sqrt`. -/
structure Cfg (K : Type) [Field K] where
  env : Env (C K)
  mt : Bool
  sqrt : K → K

def Data.addV (d : Data K) (e : Edge (C K)) : Data K := { d with vs := d.vs ++ [e] }
def Data.addM (d : Data K) (e : Edge (C K)) : Data K := { d with ms := d.ms ++ [e] }

/-- A handle the caller does not have. -/
def handle (l : List (Edge (C K))) (i : Nat) : P (C K) (Edge (C K)) :=
  match l[i]? with
  | some e => pure e
  | none => fail .oob

/-- The controls in `std::set` order (dd.h 355-363). -/
def ctl (cs : List Ctrl) : List Ctl := cs.map fun c => ⟨c.qubit, c.neg⟩

/-- `getVector` as a list (dd.cpp 1336-1353). -/
def readVec (s : St (C K)) (e : Edge (C K)) : Except Err (Obs K) :=
  match getVector s e with
  | .error er => .error er
  | .ok a => .ok (.vec ((List.range a.dim).map a.cell))

/-- `getMatrix` as a list of rows (dd.cpp 231-251). -/
def readMat (s : St (C K)) (e : Edge (C K)) (n : Nat) : Except Err (Obs K) :=
  match getMatrix s e n with
  | .error er => .error er
  | .ok a => .ok (.mat ((List.range a.dim).map fun i => (List.range a.dim).map fun j => a.cell i j))

/-- One API call.  `fk` says where a direct `vv_add` forks in the multi-threaded build (it uses the `LIMIT` left
by the last `mv_multiply`, dd.cpp 58-59, 1160).  The garbage collectors replace the caller's handles by the returned
ones; when a collection runs the `probs` map is cleared (dd.cpp 2367). -/
def prog (cfg : Cfg K) (fk : Nat → Bool) (d : Data K) : Cmd K → P (C K) (Data K × Obs K)
  | .zero n => do return (d.addV (← makeZeroState cfg.env n), .unit)
  | .one n => do return (d.addV (← makeOneState cfg.env n), .unit)
  | .ident => return (d.addM oneE, .unit)
  | .gate n g t cs => do return (d.addM (← makeGate cfg.env n g t (ctl cs)), .unit)
  | .gate2 n g t0 t1 cs => do return (d.addM (← makeTwoQubitGate cfg.env n g t0 t1 (ctl cs)), .unit)
  | .cx n t c => do return (d.addM (← gateCX cfg.env n t c), .unit)
  | .swap n t0 t1 => do return (d.addM (← makeSwap cfg.env n t0 t1), .unit)
  | .cswap n t0 t1 c => do return (d.addM (← gateCSWAP cfg.env n t0 t1 c), .unit)
  | .mv m v => do
    let m ← handle d.ms m
    let v ← handle d.vs v
    return (d.addV (← mvMul cfg.env cfg.mt m v), .unit)
  | .vadd a b => do
    let a ← handle d.vs a
    let b ← handle d.vs b
    return (d.addV (← vvAdd cfg.env fk a b), .unit)
  | .vkron a b => do
    let a ← handle d.vs a
    let b ← handle d.vs b
    return (d.addV (← vvKron cfg.env a b), .unit)
  | .scale v c => do
    let v ← handle d.vs v
    return (d.addV ⟨WOps.mul v.w c, v.n⟩, .unit)
  | .mscale m c => do
    let m ← handle d.ms m
    return (d.addM ⟨WOps.mul m.w c, m.n⟩, .unit)
  | .mmul a b => do
    let a ← handle d.ms a
    let b ← handle d.ms b
    return (d.addM (← mmMul cfg.env a b), .unit)
  | .madd a b => do
    let a ← handle d.ms a
    let b ← handle d.ms b
    return (d.addM (← mmAdd cfg.env a b), .unit)
  | .mkron a b => do
    let a ← handle d.ms a
    let b ← handle d.ms b
    return (d.addM (← mmKron cfg.env a b), .unit)
  | .gc force keep => do
    let es ← keep.mapM (handle d.vs)
    let (es, thr, ran) ← atom fun tid s => match gc cfg.env tid force d.thr es s with
      | .error er => .error er
      | .ok (es, thr, ran, s) => .ok ((es, thr, ran), s)
    return ({ d with vs := es, thr := thr, memo := if ran then fun _ => none else d.memo }, .unit)
  | .gcMat force keep => do
    let es ← keep.mapM (handle d.ms)
    let (es, thr) ← atom fun tid s => match gcMat cfg.env tid force d.thrM es s with
      | .error er => .error er
      | .ok (es, thr, _, s) => .ok ((es, thr), s)
    return ({ d with ms := es, thrM := thr }, .unit)
  | .getVector v => do
    let v ← handle d.vs v
    return (d, ← peek fun s => readVec s v)
  | .getMatrix m n => do
    let m ← handle d.ms m
    return (d, ← peek fun s => readMat s m n)
  | .probabilities v => do
    let v ← handle d.vs v
    let (l, m) ← peek fun s => probabilities s v d.memo
    return ({ d with memo := m }, .probs l)
  | .measureAll v c draw => do
    let e ← handle d.vs v
    let (l, e, m) ← measureAll cfg.env e c d.memo draw
    return ({ d with memo := m, vs := d.vs.set v e }, .str l)
  | .measureOne v q eps => do
    let v ← handle d.vs v
    let (x, m) ← peek fun s => measureOne s v q eps d.memo
    return ({ d with memo := m }, match x with | none => .throw | some x => .num x)
  | .measureOneCollapsing v q eps draw => do
    let e ← handle d.vs v
    let (x, m) ← measureOneCollapsing cfg.env cfg.mt cfg.sqrt e q eps draw d.memo
    match x with
    | none => return ({ d with memo := m }, .throw)
    | some (b, e) => return ({ d with memo := m, vs := d.vs.set v e }, .char b)

/-- The whole machine. -/
structure Sys (K : Type) [Field K] where
  d : Data K
  st : St (C K)

/-- Program start; `GC_SIZE` and `GC_SIZE_M` are configuration (dd.cpp 2361, 2409). -/
def Sys.init (thr thrM : Nat) : Sys K := ⟨⟨fun _ => none, thr, thrM, [], []⟩, St.init⟩

/-- A call returns `o`, under some schedule of its fibers on some threads. -/
def Exec (cfg : Cfg K) (σ : Sys K) (c : Cmd K) (o : Obs K) (σ' : Sys K) : Prop :=
  ∃ fk, Steps (prog cfg fk σ.d c) σ.st (Prog.ret (σ'.d, o)) σ'.st

/-- A call can get into an error state under some schedule: an invalid access, a failed assertion, a table
index out of range, an integer overflow. -/
def CanFault (cfg : Cfg K) (σ : Sys K) (c : Cmd K) : Prop :=
  ∃ fk p s, Steps (prog cfg fk σ.d c) σ.st p s ∧ Faults p s

/-- States reached by calls that respect the preconditions of the specification, with the answers given. -/
inductive Hist (cfg : Cfg K) (thr thrM : Nat) : List (Cmd K) → Heap K → Sys K → List (Obs K) → Prop
  | init : Hist cfg thr thrM [] ⟨[], []⟩ (Sys.init thr thrM) []
  | call {cs h σ os c h' o o' σ'} : Hist cfg thr thrM cs h σ os → pre NQUBITS h c →
      step cfg.sqrt h c = some (h', o') → Exec cfg σ c o σ' →
      Hist cfg thr thrM (cs ++ [c]) h' σ' (os ++ [o])

end QDD.Api
