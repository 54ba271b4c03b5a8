import Verif.Py.Client
import Verif.Py.Circ
/-!
# Model of qdd/qdd_backend.py

`_validate_and_get_circuit_property` (1070-1130) and `_evaluate_circuit` (657-1040) without MPI (`use_mpi` is False: the
`else` branches, and `map_after_swap` is the identity).  Qubits and clbits are their indices: `_create_qubitmap` and
`_create_cbitmap` (402-421) number `circ.qubits` and `circ.clbits` in order.  Strings over '0', '1' are lists of
booleans.  Progress printing, timing and the result header are left out.
-/

set_option linter.unusedSectionVars false
set_option linter.unusedVariables false
set_option linter.unusedSimpArgs false

namespace QDD.Py
open Spec Api Gate

noncomputable section

/-- The tables of one-target gates (qdd_backend.py 31-88) with the matrices of common.h and dd.cpp behind the names
(bindings.cpp 22-26, 224-232). -/
def tab1 : GName → Option (Nat → Nat → CR)
  | .H => some Hmat
  | .I => some Imat
  | .Sdg => some Sdagmat
  | .S => some Smat
  | .SXdg => some SXdagmat
  | .SX => some SXmat
  | .Tdg => some Tdagmat
  | .T => some Tmat
  | .X => some Xmat
  | .Y => some Ymat
  | .Z => some Zmat
  | .CX => some Xmat
  | .CY => some Ymat
  | .CZ => some Zmat
  | .CSX => some SXmat
  | .CCX => some Xmat
  | .C3X => some Xmat
  | .C4X => some Xmat
  | .MCX => some Xmat
  | .RX θ => some (Gate.rx θ)
  | .RY θ => some (Gate.ry θ)
  | .RZ θ => some (Gate.rz θ)
  | .P θ => some (Gate.p θ)
  | .CP θ => some (Gate.p θ)
  | .MCP θ => some (Gate.p θ)
  | .CU1 θ => some (Gate.u1 θ)
  | .CRX θ => some (Gate.rx θ)
  | .CRY θ => some (Gate.ry θ)
  | .CRZ θ => some (Gate.rz θ)
  | .R θ φ => some (Gate.r θ φ)
  | .U θ φ lam => some (Gate.u3 θ φ lam)
  | .CU3 θ φ lam => some (Gate.u3 θ φ lam)
  | .CU θ φ lam γ => some (Gate.u θ φ lam γ)
  | _ => none

/-- The tables of two-target gates (qdd_backend.py 90-107; bindings.cpp 255-262). -/
def tab2 : GName → Option (Nat → Nat → CR)
  | .Swap => some swp
  | .ISwap => some iswp
  | .CSwap => some swp
  | .RXX θ => some (rxx θ)
  | .RYY θ => some (ryy θ)
  | .RZZ θ => some (rzz θ)
  | .RZX θ => some (rzx θ)
  | _ => none

/-- `get_controls` (bindings.cpp 60-66): positive controls, in the order of `std::set<Control>` (dd.h 355-363). -/
def controls (qs : List Nat) : List Ctrl := (qs.mergeSort (· ≤ ·)).map fun q => ⟨q, false⟩

/-! ## Circuit properties -/

/-- `CircuitProperty` (circuit_property.py): `clbit_final_values` as an association list, newest first. -/
structure CircProp where
  stable : Bool
  final : List (Nat × Nat)
  measured : List Nat

/-- The `elif` of qdd_backend.py 1096-1113 ('kraus' and 'superop' are `other` here and cannot be executed anyway). -/
def destabilises (x : Inst) (measured : List Nat) : Bool :=
  x.cond.isSome || x.qargs.any (measured.contains ·) || (match x.op with | .reset => true | _ => false)

/-- One turn of the loop of `_validate_and_get_circuit_property` (qdd_backend.py 1088-1113). -/
def propStep (x : Inst) (s : CircProp) : CircProp :=
  match x.op with
  | .measure => { s with final := (x.cargs.headD 0, x.qargs.headD 0) :: s.final, measured := x.qargs ++ s.measured }
  | _ => if destabilises x s.measured then { s with stable := false } else s

/-- The loop of `_validate_and_get_circuit_property` (qdd_backend.py 1088-1122), with its early exit. -/
def propLoop : List Inst → CircProp → CircProp
  | [], s => s
  | x :: xs, s =>
    let s' := propStep x s
    if !s'.stable && !s'.measured.isEmpty then s' else propLoop xs s'

/-- `_validate_and_get_circuit_property` (qdd_backend.py 1055-1130).  `none` is an exception. -/
def circProp (c : Circ) (requireMeasurement : Bool) : Option CircProp :=
  if 100 < c.nq then none else
  let s := propLoop c.data ⟨true, [], []⟩
  if s.measured.isEmpty && requireMeasurement then none else some s

/-! ## Evaluation -/

/-- The options used (qdd_backend.py 347-363): `shots` is validated to be positive or None. -/
structure Opts where
  shots : Option Nat
  saveSV : Bool

/-- The condition test (qdd_backend.py 716-727): `true` is skip.  In the register case the clbit's index in the
circuit, not its position in the register, selects the bit of the value. -/
def skips (val : List Bool) : Option Cond → Bool
  | none => false
  | some (.bit c v) => decide ((if val.getD c false then 1 else 0) ≠ v)
  | some (.reg cs v) => cs.any fun idx => decide (val.getD idx false ≠ v.testBit idx)

/-- What one trip through the instructions carries: the handle of `current`, `val_cbit`, `prob_cbit`. -/
structure Loc where
  cur : Nat
  val : List Bool
  pc : List ℝ

/-- The tolerance of the measurement functions (dd.h 482-495). -/
def epsM : ℝ := 1 / 1000

/-- `mv_multiply(gate, current)` with the gate just built, then `gc(current, False)` (qdd_backend.py 787-803, 948). -/
def applyLast (s : Loc) (nm : Nat) (k : Loc → Client α) : Client α :=
  .call (.mv (nm - 1) s.cur) fun _ nv _ =>
  .call (.gc false [nv - 1]) fun _ _ _ => k { s with cur := 0 }

/-- `current = pyQDD.gc(current, False)` (qdd_backend.py 948). -/
def collect (s : Loc) (k : Loc → Client α) : Client α :=
  .call (.gc false [s.cur]) fun _ _ _ => k { s with cur := 0 }

/-- One instruction (qdd_backend.py 715-953).  `UnitaryGate` is not modelled: `makeLargeGate` has no defined
behaviour (C07). -/
def instr (n : Nat) (stable : Bool) (shots : Bool) (x : Inst) (s : Loc) (k : Loc → Client α) : Client α :=
  if skips s.val x.cond then k s else
  match x.op with
  | .barrier => k s
  | .measure =>
    if stable then k s else
    let q := x.qargs.headD 0
    let c := x.cargs.headD 0
    if shots then
      .draw fun u => .call (.measureOneCollapsing s.cur q epsM u) fun o _ _ =>
        match o with
        | .char b => collect { s with val := s.val.set c b } k
        | _ => .raise
    else
      .call (.measureOne s.cur q epsM) fun o _ _ =>
        match o with
        | .num p => collect { s with pc := s.pc.set c p } k
        | _ => .raise
  | .reset =>
    if stable then .raise else
    let q := x.qargs.headD 0
    .draw fun u => .call (.measureOneCollapsing s.cur q epsM u) fun o _ _ =>
      match o with
      | .char b => if b then .call (.gate n Xmat q []) fun _ _ nm => applyLast s nm k else collect s k
      | _ => .raise
  | .gate g ctl =>
    if stable && !x.cargs.isEmpty then .raise else
    match tab1 g with
    | some m =>
      match x.qargs.reverse with
      | t :: cs => .call (.gate n m t (controls cs.reverse)) fun _ _ nm => applyLast s nm k
      | [] => .raise
    | none =>
      match tab2 g with
      | some m =>
        match x.qargs.reverse with
        | t1 :: t0 :: cs => .call (.gate2 n m t1 t0 (controls cs.reverse)) fun _ _ nm => applyLast s nm k
        | _ => .raise
      | none => .raise
  | .qdd hd _ _ =>
    .call (.mv hd s.cur) fun _ nv _ => .call (.gc false [nv - 1]) fun _ _ _ => k { s with cur := 0 }
  | .unitary => .raise
  | .other => .raise

/-- The loop over `circ.data` (qdd_backend.py 715-953). -/
def insts (n : Nat) (stable shots : Bool) : List Inst → Loc → (Loc → Client α) → Client α
  | [], s, k => k s
  | x :: xs, s, k => instr n stable shots x s fun s => insts n stable shots xs s k

/-- One trip: the initial state, then the instructions (qdd_backend.py 702-714). -/
def trip (c : Circ) (stable shots : Bool) (pc : List ℝ) (k : Loc → Client α) : Client α :=
  .call (.zero c.nq) fun _ nv _ => insts c.nq stable shots c.data ⟨nv - 1, List.replicate c.nc false, pc⟩ k

/-- The shots of an unstable circuit (qdd_backend.py 702-958): `sampled_values[shot] = "".join(reversed(val_cbit))`. -/
def shotLoop (c : Circ) : Nat → Loc → List (List Bool) → (Loc → List (List Bool) → Client α) → Client α
  | 0, s, acc, k => k s acc
  | r + 1, _, acc, k => trip c false true (List.replicate c.nc 0) fun s => shotLoop c r s (acc ++ [s.val.reverse]) k

/-- `n` draws. -/
def drawN : Nat → (List ℝ → Client α) → Client α
  | 0, k => k []
  | n + 1, k => .draw fun u => drawN n fun us => k (u :: us)

/-- `result_final_tmp` (qdd_backend.py 975-986): each measured clbit takes the character of its qubit. -/
def finalKey (nc : Nat) (final : List (Nat × Nat)) (l : List Bool) : List Bool :=
  (List.range nc).map fun c => match final.lookup c with
    | some q => l.getD (l.length - 1 - q) false
    | none => false

/-- Sampling a stable final state (qdd_backend.py 967-990). -/
def sampleLoop (c : Circ) (final : List (Nat × Nat)) : Nat → Nat → List (List Bool) → (List (List Bool) → Client α) → Client α
  | 0, _, acc, k => k acc
  | r + 1, cur, acc, k =>
    drawN c.nq fun us => .call (.measureAll cur false fun t => us.getD t 0) fun o _ _ =>
      match o with
      | .str l => sampleLoop c final r cur (acc ++ [(finalKey c.nc final l).reverse]) k
      | _ => .raise

/-- `result_data` (qdd_backend.py 992-1030): `memory` is `sampled_values`, of which `counts` is the `Counter`. -/
structure Result where
  memory : Option (List (List Bool))
  probs : Option (List ℝ)
  statevector : Option (List (Option CR))

/-- `Counter(sampled_values)` (qdd_backend.py 993). -/
def counts (memory : List (List Bool)) (key : List Bool) : Nat := memory.count key

/-- The `statevector` entry (qdd_backend.py 997-1002, 1025-1030). -/
def withSV (sv : Bool) (cur : Nat) (r : Result) : Client Result :=
  if sv then .call (.getVector cur) fun o _ _ =>
    match o with
    | .vec l => .ret { r with statevector := some l }
    | _ => .raise
  else .ret r

/-- The product of the marginals (qdd_backend.py 1011-1018). -/
def marginProduct (nc : Nat) (pc : List ℝ) : List ℝ :=
  (List.range (2 ^ nc)).map fun i =>
    ((List.range nc).map fun j => if i.testBit j then 1 - pc.getD j 0 else pc.getD j 0).prod

/-- `applyGlobal` (qdd_backend.py 965; bindings.cpp 97-102). -/
def applyGlobal (phase : ℝ) (cur : Nat) (k : Nat → Client α) : Client α :=
  .call (.scale cur ⟨Real.cos phase, Real.sin phase⟩) fun _ nv _ => k (nv - 1)

/-- `_evaluate_circuit` (qdd_backend.py 657-1040). -/
def evaluate (c : Circ) (cp : CircProp) (o : Opts) : Client Result :=
  match o.shots with
  | some r =>
    if cp.stable then
      trip c true true (List.replicate c.nc 0) fun s =>
      applyGlobal c.phase s.cur fun cur =>
      sampleLoop c cp.final r cur [] fun mem => withSV o.saveSV cur ⟨some mem, none, none⟩
    else
      shotLoop c r ⟨0, [], []⟩ [] fun s mem =>
      applyGlobal c.phase s.cur fun cur => withSV o.saveSV cur ⟨some mem, none, none⟩
  | none =>
    if c.data.any (·.cond.isSome) then .raise else
    trip c cp.stable false (List.replicate c.nc 0) fun s =>
    applyGlobal c.phase s.cur fun cur =>
    if cp.stable then
      .call (.probabilities cur) fun ob _ _ =>
        match ob with
        | .probs l => withSV o.saveSV cur ⟨none, some l, none⟩
        | _ => .raise
    else withSV o.saveSV cur ⟨none, some (marginProduct c.nc s.pc), none⟩

/-- `run` of one circuit with validated options (qdd_backend.py 290-400): a failed validation is a failed job. -/
def run (c : Circ) (o : Opts) : Client Result :=
  match circProp c (!o.saveSV) with
  | none => .raise
  | some cp => evaluate c cp o

end
end QDD.Py
