import Verif.Grover.Model
import Verif.Shor.Model
import Mathlib.Data.Nat.Log
/-!
# The modular multiplier of Shor's algorithm as a circuit (src/algorithms/shor.cpp 30-215)

A member function of `Shor` that calls `s.addGate` is modelled by the list of the gates it adds, in order.  Code index `i`
is qubit `(n_qubits - 1) - i`.  Simplifications: the angles are real numbers (`QDDcos`, `QDDsin` take and return `float`);
`addGate` and `buildCircuit` are not members of `Scheduler` at this commit (the file is not compiled): the gates are
applied to the state one after another.
-/

set_option linter.unusedSectionVars false
set_option linter.unusedVariables false
set_option linter.unusedSimpArgs false

namespace QDD.Shor
open Spec Api Gate Py Py.Client QDD.Grover

noncomputable section

variable {α : Type}

/-- `required_bits` (shor.hpp 14). -/
def requiredBits (N : Nat) : Nat := Nat.clog 2 N

/-- `n_qubits` (shor.hpp 14). -/
def nQubits (r : Nat) : Nat := 2 * r + 3

/-- `controls.emplace(c)`: a `std::set` ordered by qubit, then negative before positive (dd.h 360-383). -/
def emplace (c : Ctrl) : List Ctrl → List Ctrl
  | [] => [c]
  | d :: ds =>
    if c.qubit < d.qubit ∨ (c.qubit = d.qubit ∧ c.neg = true ∧ d.neg = false) then c :: d :: ds
    else if c = d then d :: ds else d :: emplace c ds

/-- A positive control on index `i`. -/
def ctl (r i : Nat) : Ctrl := ⟨(nQubits r - 1) - i, false⟩

/-- The controls of `add_phi` (shor.cpp 43-49): `none` is `std::numeric_limits<int>::min()`. -/
def controls2 (r : Nat) (c1 c2 : Option Nat) : List Ctrl :=
  let s := match c1 with | some i => emplace (ctl r i) [] | none => []
  match c2 with | some i => emplace (ctl r i) s | none => s

/-- The loop that computes `fac` and `q` (shor.cpp 32-41): `j` runs down to 0; `fac` is an `unsigned int`. -/
def facLoop (a : Nat) : Nat → Nat → Nat → Nat × Nat
  | 0, fac, q => (fac, q)
  | j + 1, fac, q => facLoop a j ((2 * (if (a >>> j) &&& 1 ≠ 0 then fac ||| 1 else fac)) % 2 ^ 32) (2 * q)

/-- `GateMatrix Qm{cf_one, cf_zero, cf_zero, {q_r, q_i}}` with `QDDcos(fac, q)` and `QDDsin(fac, q)` (shor.cpp 51-53,
shor.hpp 58-64). -/
def phaseGate (fac div : ℝ) : Nat → Nat → CR := g4 1 0 0 ⟨Real.cos (Real.pi * fac / div), Real.sin (Real.pi * fac / div)⟩

/-- `add_phi` from `i = k - 1` down to 0 (shor.cpp 30-59). -/
def addPhiLoop (r a : Nat) (c1 c2 : Option Nat) : Nat → List (Cmd ℝ)
  | 0 => []
  | i + 1 =>
    let fq := facLoop a (i + 1) 0 1
    .gate (nQubits r) (phaseGate fq.1 fq.2) ((nQubits r - 1) - (1 + 2 * r - i)) (controls2 r c1 c2) :: addPhiLoop r a c1 c2 i

/-- `add_phi` (shor.cpp 30-59). -/
def addPhi (r a : Nat) (c1 c2 : Option Nat) : List (Cmd ℝ) := addPhiLoop r a c1 c2 (r + 1)

/-- `add_phi_inv` from `i = k - 1` down to 0 (shor.cpp 61-87). -/
def addPhiInvLoop (r a : Nat) (c1 c2 : Option Nat) : Nat → List (Cmd ℝ)
  | 0 => []
  | i + 1 =>
    let fq := facLoop a (i + 1) 0 1
    .gate (nQubits r) (phaseGate fq.1 (-(fq.2 : ℝ))) ((nQubits r - 1) - (1 + 2 * r - i)) (controls2 r c1 c2) ::
      addPhiInvLoop r a c1 c2 i

/-- `add_phi_inv` (shor.cpp 61-87). -/
def addPhiInv (r a : Nat) (c1 c2 : Option Nat) : List (Cmd ℝ) := addPhiInvLoop r a c1 c2 (r + 1)

/-- The inner loop of `qft` (shor.cpp 142-151) and of `qft_inv` (shor.cpp 157-166): `k` more values of `j`; `s` is the sign
of the angle, `q` starts at 2. -/
def phases (r i : Nat) (s : ℝ) : Nat → Nat → Nat → List (Cmd ℝ)
  | 0, _, _ => []
  | k + 1, j, q => .gate (nQubits r) (phaseGate 1 (s * q)) ((nQubits r - 1) - i) [ctl r j] :: phases r i s k (j + 1) (2 * q)

/-- The outer loop of `qft` (shor.cpp 138-153): `k` more values of `i`. -/
def qftLoop (r : Nat) : Nat → Nat → List (Cmd ℝ)
  | 0, _ => []
  | k + 1, i => .gate (nQubits r) Hmat ((nQubits r - 1) - i) [] :: phases r i 1 (2 * r + 2 - (i + 1)) (i + 1) 2 ++ qftLoop r k (i + 1)

/-- `qft` (shor.cpp 137-154). -/
def qft (r : Nat) : List (Cmd ℝ) := qftLoop r (2 * r + 2 - (r + 1)) (r + 1)

/-- The outer loop of `qft_inv` (shor.cpp 156-169): `i` runs down from `k + r` to `r + 1`. -/
def qftInvLoop (r : Nat) : Nat → List (Cmd ℝ)
  | 0 => []
  | k + 1 => phases r (k + 1 + r) (-1) (2 * r + 2 - (k + 1 + r + 1)) (k + 1 + r + 1) 2 ++
      .gate (nQubits r) Hmat ((nQubits r - 1) - (k + 1 + r)) [] :: qftInvLoop r k

/-- `qft_inv` (shor.cpp 155-170); `2 * required_bits + 1` is `(r + 1) + r`. -/
def qftInv (r : Nat) : List (Cmd ℝ) := qftInvLoop r (r + 1)

/-- X on the ancilla, controlled by the top bit of the sum (shor.cpp 95-98, 105-108, 117-120, 127-130). -/
def topX (r : Nat) (neg : Bool) : Cmd ℝ :=
  .gate (nQubits r) Xmat ((nQubits r - 1) - (2 * r + 2)) [⟨(nQubits r - 1) - (r + 1), neg⟩]

/-- `mod_add_phi` (shor.cpp 89-111). -/
def modAddPhi (r a N : Nat) (c1 c2 : Option Nat) : List (Cmd ℝ) :=
  addPhi r a c1 c2 ++ addPhiInv r N none none ++ qftInv r ++ [topX r false] ++ qft r ++
  addPhi r N (some (2 * r + 2)) none ++ addPhiInv r a c1 c2 ++ qftInv r ++ [topX r true] ++ qft r ++ addPhi r a c1 c2

/-- `mod_add_phi_inv` (shor.cpp 112-135). -/
def modAddPhiInv (r a N : Nat) (c1 c2 : Option Nat) : List (Cmd ℝ) :=
  addPhiInv r a c1 c2 ++ qftInv r ++ [topX r true] ++ qft r ++ addPhi r a c1 c2 ++
  addPhiInv r N (some (2 * r + 2)) none ++ qftInv r ++ [topX r false] ++ qft r ++ addPhi r N none none ++ addPhiInv r a c1 c2

/-- The loop of `cmult` and `cmult_inv` (shor.cpp 175-178, 185-188): `i` runs down to 1; `none` when `2 * t` overflows an
`int`. -/
def multLoop (step : Nat → Nat → List (Cmd ℝ)) (N : Nat) : Nat → Nat → Option (List (Cmd ℝ))
  | 0, _ => some []
  | i + 1, t => if 2 * t < 2 ^ 31 then (multLoop step N i ((2 * t) % N)).map (step t (i + 1) ++ ·) else none

/-- `cmult` (shor.cpp 171-180). -/
def cmult (r a N c : Nat) : Option (List (Cmd ℝ)) :=
  (multLoop (fun t i => modAddPhi r t N (some i) (some c)) N r a).map fun l => qft r ++ l ++ qftInv r

/-- `cmult_inv` (shor.cpp 182-190). -/
def cmultInv (r a N c : Nat) : Option (List (Cmd ℝ)) :=
  (multLoop (fun t i => modAddPhiInv r t N (some i) (some c)) N r a).map fun l => qft r ++ l ++ qftInv r

/-- The controlled swap of the registers (shor.cpp 193-209): `k` more values of `i`. -/
def swapLoop (r c : Nat) : Nat → Nat → List (Cmd ℝ)
  | 0, _ => []
  | k + 1, i =>
    .gate (nQubits r) Xmat ((nQubits r - 1) - (i + 1)) [ctl r (r + 2 + i)] ::
    .gate (nQubits r) Xmat ((nQubits r - 1) - (r + 2 + i)) (emplace (ctl r c) [ctl r (i + 1)]) ::
    .gate (nQubits r) Xmat ((nQubits r - 1) - (i + 1)) [ctl r (r + 2 + i)] :: swapLoop r c k (i + 1)

/-- `u_a(a, N, c)` (shor.cpp 191-212) adds the gates `gs`. -/
def UA (N a c : Nat) (gs : List (Cmd ℝ)) : Prop :=
  ∃ (x : Int) (m1 m2 : List (Cmd ℝ)), InverseMod a N (.ret x) ∧ cmult (requiredBits N) a N c = some m1 ∧
    cmultInv (requiredBits N) x.toNat N c = some m2 ∧
    gs = m1 ++ swapLoop (requiredBits N) c (requiredBits N) 0 ++ m2

/-- The gates are applied to the state one after another. -/
def applyAll : List Nat → Nat → (Nat → Client α) → Client α
  | [], v, k => k v
  | g :: gs, v, k => .call (.mv g v) fun _ nv _ => applyAll gs (nv - 1) k

/-- Gates added with `addGate`, then `buildCircuit` on the state `v`. -/
def buildCircuit (gs : List (Cmd ℝ)) (v : Nat) (k : Nat → Client α) : Client α :=
  makeAll gs [] fun hs => applyAll hs v k

end
end QDD.Shor
