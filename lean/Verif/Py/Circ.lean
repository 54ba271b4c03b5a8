import Verif.Props.Named
/-!
# Specification: what a Qiskit circuit means

Circuits as Qiskit presents them to a backend, the matrices of the gates as the Qiskit documentation gives them (over
Mathlib's `ℂ`), and the textbook distribution of the classical bits: measurements project, without normalising, and a
branch has the squared norm of its state as probability.  Nothing here refers to the backend or the engine; only the
type of amplitudes and the one- and two-qubit operators `Spec.gate1`, `Spec.gate2` are shared.
-/

set_option linter.unusedSectionVars false
set_option linter.unusedVariables false
set_option linter.unusedSimpArgs false

namespace QDD.Py
open Spec Finset Gate
open scoped Kronecker

/-- The Qiskit gate classes the backend's tables name (qdd_backend.py 31-120), with their parameters. -/
inductive GName where
  -- one target
  | H | I | Sdg | S | SXdg | SX | Tdg | T | X | Y | Z
  | CX | CY | CZ | CSX | CCX | C3X | C4X | MCX
  | RX (θ : ℝ) | RY (θ : ℝ) | RZ (θ : ℝ) | P (θ : ℝ) | CP (θ : ℝ) | MCP (θ : ℝ) | CU1 (θ : ℝ)
  | CRX (θ : ℝ) | CRY (θ : ℝ) | CRZ (θ : ℝ)
  | R (θ φ : ℝ) | U (θ φ lam : ℝ) | CU3 (θ φ lam : ℝ) | CU (θ φ lam γ : ℝ)
  -- two targets
  | Swap | ISwap | CSwap | RXX (θ : ℝ) | RYY (θ : ℝ) | RZZ (θ : ℝ) | RZX (θ : ℝ)

/-- A classical condition `c_if`. -/
inductive Cond where
  /-- one bit -/
  | bit (c : Nat) (v : Nat)
  /-- a register, its bits lowest first -/
  | reg (cs : List Nat) (v : Nat)

inductive Op where
  /-- a gate; the list gives for each control the value it must have (`ctrl_state`) -/
  | gate (g : GName) (ctl : List Bool)
  /-- `UnitaryGate` -/
  | unitary
  /-- `QDDGate`: a matrix held by the engine under handle `hd`, on `k` qubits -/
  | qdd (hd k : Nat) (M : Nat → Nat → CR)
  | barrier | measure | reset
  /-- anything else (not decomposed by the transpiler) -/
  | other

/-- An instruction; qubits and clbits by their index in the circuit. -/
structure Inst where
  op : Op
  qargs : List Nat
  cargs : List Nat
  cond : Option Cond

structure Circ where
  nq : Nat
  nc : Nat
  phase : ℝ
  data : List Inst

noncomputable section

/-! ## Gate matrices of the Qiskit documentation -/

/-- The matrix applied to the target of a one-target gate (when its controls hold). -/
def GName.mat1 : GName → Option (Matrix (Fin 2) (Fin 2) ℂ)
  | .H => some ((1 / (√2 : ℝ) : ℂ) • !![1, 1; 1, -1])
  | .I => some 1
  | .S => some !![1, 0; 0, Complex.I]
  | .Sdg => some !![1, 0; 0, -Complex.I]
  | .SX | .CSX => some ((1 / 2 : ℂ) • !![1 + Complex.I, 1 - Complex.I; 1 - Complex.I, 1 + Complex.I])
  | .SXdg => some ((1 / 2 : ℂ) • !![1 - Complex.I, 1 + Complex.I; 1 + Complex.I, 1 - Complex.I])
  | .T => some !![1, 0; 0, Complex.exp ((Real.pi / 4 : ℝ) * Complex.I)]
  | .Tdg => some !![1, 0; 0, Complex.exp (((-(Real.pi / 4) : ℝ) : ℂ) * Complex.I)]
  | .X | .CX | .CCX | .C3X | .C4X | .MCX => some !![0, 1; 1, 0]
  | .Y | .CY => some !![0, -Complex.I; Complex.I, 0]
  | .Z | .CZ => some !![1, 0; 0, -1]
  | .RX θ | .CRX θ => some !![Real.cos (θ / 2), -Complex.I * Real.sin (θ / 2); -Complex.I * Real.sin (θ / 2), Real.cos (θ / 2)]
  | .RY θ | .CRY θ => some !![(Real.cos (θ / 2) : ℂ), -Real.sin (θ / 2); Real.sin (θ / 2), Real.cos (θ / 2)]
  | .RZ θ | .CRZ θ => some !![Complex.exp (((-(θ / 2) : ℝ) : ℂ) * Complex.I), 0; 0, Complex.exp ((θ / 2 : ℝ) * Complex.I)]
  | .P θ | .CP θ | .MCP θ | .CU1 θ => some !![1, 0; 0, Complex.exp (θ * Complex.I)]
  | .R θ φ => some !![(Real.cos (θ / 2) : ℂ), -Complex.I * Complex.exp (((-φ : ℝ) : ℂ) * Complex.I) * Real.sin (θ / 2);
      -Complex.I * Complex.exp (φ * Complex.I) * Real.sin (θ / 2), Real.cos (θ / 2)]
  | .U θ φ lam | .CU3 θ φ lam => some !![(Real.cos (θ / 2) : ℂ), -(Complex.exp (lam * Complex.I) * Real.sin (θ / 2));
      Complex.exp (φ * Complex.I) * Real.sin (θ / 2), Complex.exp (((φ + lam : ℝ) : ℂ) * Complex.I) * Real.cos (θ / 2)]
  | .CU θ φ lam γ => some (Complex.exp (γ * Complex.I) •
      !![(Real.cos (θ / 2) : ℂ), -(Complex.exp (lam * Complex.I) * Real.sin (θ / 2));
        Complex.exp (φ * Complex.I) * Real.sin (θ / 2), Complex.exp (((φ + lam : ℝ) : ℂ) * Complex.I) * Real.cos (θ / 2)])
  | _ => none

/-- The matrix applied to the two targets of a two-target gate; the index is (second target, first target). -/
def GName.mat2 : GName → Option (Matrix (Fin 2 × Fin 2) (Fin 2 × Fin 2) ℂ)
  | .Swap | .CSwap => some fun i j => if i = (j.2, j.1) then 1 else 0
  | .ISwap => some fun i j => if i = (j.2, j.1) then (if j.1 = j.2 then 1 else Complex.I) else 0
  | .RXX θ => some (rot (σx ⊗ₖ σx) θ)
  | .RYY θ => some (rot (σy ⊗ₖ σy) θ)
  | .RZZ θ => some (rot (σz ⊗ₖ σz) θ)
  | .RZX θ => some (rot (σx ⊗ₖ σz) θ)
  | _ => none

/-- A complex number in the amplitude type. -/
def ofC (z : ℂ) : CR := ⟨z.re, z.im⟩

/-- The index of a target bit. -/
def fin2 (r : Nat) : Fin 2 := if r = 0 then 0 else 1

/-- The controls (all arguments but the targets) with the values they must have; missing values are 1. -/
def ctrls (ctl : List Bool) (qs : List Nat) : List Ctrl :=
  (List.range qs.length).map fun i => ⟨qs.getD i 0, !ctl.getD i true⟩

/-- The operator of a gate on the listed qubits of `n`: controls first, then the targets. -/
def GName.oper (g : GName) (n : Nat) (ctl : List Bool) (qs : List Nat) : Option (Nat → Nat → CR) :=
  match g.mat1, g.mat2, qs.reverse with
  | some A, _, t :: cs => some (Spec.gate1 n (fun r c => ofC (A (fin2 r) (fin2 c))) t (ctrls ctl cs.reverse))
  | none, some A, t1 :: t0 :: cs => some (Spec.gate2 n
      (fun r c => ofC (A (fin2 (r / 2), fin2 (r % 2)) (fin2 (c / 2), fin2 (c % 2)))) t1 t0 (ctrls ctl cs.reverse))
  | _, _, _ => none

/-- The index formed by the bits of `i` at the listed qubits, the first being the lowest bit. -/
def subIndex (qs : List Nat) (i : Nat) : Nat := ∑ m ∈ range qs.length, if i.testBit (qs.getD m 0) then 2 ^ m else 0

/-- A matrix on the listed qubits, identity elsewhere. -/
def onQubits (n : Nat) (M : Nat → Nat → CR) (qs : List Nat) (i j : Nat) : CR :=
  if ∀ b < n, b ∉ qs → i.testBit b = j.testBit b then M (subIndex qs i) (subIndex qs j) else 0

/-- The operator of an instruction that has one. -/
def Inst.oper (x : Inst) (n : Nat) : Option (Nat → Nat → CR) :=
  match x.op with
  | .gate g ctl => g.oper n ctl x.qargs
  | .qdd _ _ M => some (onQubits n M x.qargs)
  | _ => none

/-- Applying an operator of `n` qubits. -/
def app (n : Nat) (A : Nat → Nat → CR) (f : Nat → CR) : Nat → CR := fun i => ∑ j ∈ range (2 ^ n), A i j * f j

/-- The part of a state where qubit `q` is `b`. -/
def proj (q : Nat) (b : Bool) (f : Nat → CR) : Nat → CR := fun i => if i.testBit q = b then f i else 0

/-- Qubit `q` flipped. -/
def flip (q : Nat) (f : Nat → CR) : Nat → CR := fun i => f (i ^^^ 2 ^ q)

/-- Squared norm. -/
def nrm (n : Nat) (f : Nat → CR) : ℝ := ∑ i ∈ range (2 ^ n), (f i).mag2

/-- The value of a register. -/
def regValue (val : Nat → Bool) (cs : List Nat) : Nat := ∑ m ∈ range cs.length, if val (cs.getD m 0) then 2 ^ m else 0

/-- A condition holds. -/
def Cond.holds (val : Nat → Bool) : Cond → Bool
  | .bit c v => decide ((if val c then 1 else 0) = v)
  | .reg cs v => decide (regValue val cs = v)

/-- Does the instruction run? -/
def Inst.enabled (x : Inst) (val : Nat → Bool) : Bool :=
  match x.cond with | none => true | some c => c.holds val

/-- One bit assigned. -/
def upd (val : Nat → Bool) (c : Nat) (b : Bool) : Nat → Bool := fun i => if i = c then b else val i

/-- **The meaning of a circuit**: the expected value of `φ` (a function of the final classical bits) when the
instructions are executed on the state `f` with classical bits `val`.  Branches of measurements and resets are
weighted by their squared norm. -/
def expect (n : Nat) (φ : (Nat → Bool) → ℝ) : List Inst → (Nat → CR) → (Nat → Bool) → ℝ
  | [], f, val => nrm n f * φ val
  | x :: xs, f, val =>
    if x.enabled val then
      match x.op with
      | .measure =>
        let q := x.qargs.headD 0
        let c := x.cargs.headD 0
        expect n φ xs (proj q false f) (upd val c false) + expect n φ xs (proj q true f) (upd val c true)
      | .reset =>
        let q := x.qargs.headD 0
        expect n φ xs (proj q false f) val + expect n φ xs (flip q (proj q true f)) val
      | .barrier => expect n φ xs f val
      | _ => match x.oper n with
        | some A => expect n φ xs (app n A f) val
        | none => 0
    else expect n φ xs f val

/-- |0…0>. -/
def zeroState : Nat → CR := fun i => if i = 0 then 1 else 0

/-- The probability that the final values of the clbits are `key` (highest clbit first, as in the counts). -/
def Circ.prob (c : Circ) (key : List Bool) : ℝ := by
  classical
  exact expect c.nq (fun val => if key = ((List.range c.nc).map val).reverse then 1 else 0) c.data zeroState (fun _ => false)

/-! ## Well-formed circuits: what Qiskit guarantees -/

/-- Number of control bits and targets fits the arguments. -/
def Op.arity : Op → List Nat → List Nat → Prop
  | .gate g ctl, qs, cs => cs = [] ∧ ctl.length + (if g.mat1.isSome then 1 else 2) = qs.length
  | .qdd _ k _, qs, cs => cs = [] ∧ qs.length = k
  | .measure, qs, cs => qs.length = 1 ∧ cs.length = 1
  | .reset, qs, cs => qs.length = 1 ∧ cs = []
  | .barrier, _, cs => cs = []
  | _, _, _ => True

def Cond.wf (nc : Nat) : Cond → Prop
  | .bit c v => c < nc ∧ v < 2
  | .reg cs v => cs.Nodup ∧ (∀ c ∈ cs, c < nc) ∧ v < 2 ^ cs.length

structure Inst.WF (n nc : Nat) (x : Inst) : Prop where
  distinct : x.qargs.Nodup
  qubits : ∀ q ∈ x.qargs, q < n
  clbits : ∀ c ∈ x.cargs, c < nc
  arity : x.op.arity x.qargs x.cargs
  cond : ∀ c, x.cond = some c → c.wf nc

end
end QDD.Py
