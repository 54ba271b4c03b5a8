import Verif.Core.Cx
/-!
# Specification: the API on plain vectors and matrices

No nodes, tables, caches, weights on edges or garbage collection.  A state is a function on indices, a matrix a
function on pairs of indices; the operations are the textbook formulas.  This file does not use the model: it
only shares the complex number type, the command syntax, and the qubit limit.
-/

set_option linter.unusedSectionVars false

namespace QDD.Spec
open Finset

variable {K : Type} [Field K] [LinearOrder K] [IsStrictOrderedRing K]

/-- Exact complex numbers over `K`. -/
abbrev C (K : Type) [Field K] := Cx K (0 : K)

/-- A state of `k` qubits: amplitudes at the indices below `2^k`. -/
structure Vec (K : Type) [Field K] where
  k : Nat
  f : Nat → C K

/-- An operator on `k` qubits. -/
structure Mat (K : Type) [Field K] where
  k : Nat
  F : Nat → Nat → C K

/-- The operator `1 ⊗ F` of `n ≥ k` qubits. -/
def Mat.at (m : Mat K) (n : Nat) (i j : Nat) : C K :=
  if i / 2 ^ m.k = j / 2 ^ m.k then m.F (i % 2 ^ m.k) (j % 2 ^ m.k) else 0

/-- A control: qubit and polarity. -/
structure Ctrl where
  qubit : Nat
  neg : Bool
  deriving DecidableEq

/-- All controls are satisfied by the basis state `i`. -/
def sat (cs : List Ctrl) (n i : Nat) : Prop := ∀ c ∈ cs, c.qubit < n → i.testBit c.qubit = !c.neg

instance (cs : List Ctrl) (n i : Nat) : Decidable (sat cs n i) := by unfold sat; infer_instance

/-- A bit as a number. -/
def bit (b : Bool) : Nat := if b then 1 else 0

/-- `g` on qubit `t` where the controls hold, identity elsewhere. -/
def gate1 (n : Nat) (g : Nat → Nat → C K) (t : Nat) (cs : List Ctrl) (i j : Nat) : C K :=
  if ∀ b < n, b ≠ t → i.testBit b = j.testBit b then
    if sat cs n i then g (bit (i.testBit t)) (bit (j.testBit t))
    else if i.testBit t = j.testBit t then 1 else 0
  else 0

/-- `g` on the pair of qubits `(t0, t1)` (`t0` is the high bit of the row and column index of `g`) where the
controls hold, identity elsewhere. -/
def gate2 (n : Nat) (g : Nat → Nat → C K) (t0 t1 : Nat) (cs : List Ctrl) (i j : Nat) : C K :=
  if ∀ b < n, b ≠ t0 → b ≠ t1 → i.testBit b = j.testBit b then
    if sat cs n i then
      g (2 * bit (i.testBit t0) + bit (i.testBit t1)) (2 * bit (j.testBit t0) + bit (j.testBit t1))
    else if i.testBit t0 = j.testBit t0 ∧ i.testBit t1 = j.testBit t1 then 1 else 0
  else 0

/-- `i` with bit `t` flipped if bit `c` is set. -/
def cnot (t c i : Nat) : Nat := if i.testBit c then i ^^^ 2 ^ t else i
/-- `i` with bits `a` and `b` exchanged. -/
def exch (a b i : Nat) : Nat := if i.testBit a = i.testBit b then i else i ^^^ 2 ^ a ^^^ 2 ^ b

/-- The matrix of a map on basis states. -/
def permM (n : Nat) (σ : Nat → Nat) : Mat K := ⟨n, fun i j => if i = σ j then 1 else 0⟩

def Vec.norm2 (v : Vec K) : K := ∑ i ∈ range (2 ^ v.k), (v.f i).mag2
/-- Probability weight of the basis states whose bit `q` is `b`. -/
def Vec.marg (v : Vec K) (q : Nat) (b : Bool) : K :=
  ∑ i ∈ range (2 ^ v.k), if i.testBit q = b then (v.f i).mag2 else 0

def Vec.Nonzero (v : Vec K) : Prop := ∃ i < 2 ^ v.k, v.f i ≠ 0

/-- `m` is the identity on its top qubit. -/
def Mat.TopIdentity (m : Mat K) : Prop :=
  ∃ G : Mat K, G.k + 1 = m.k ∧ ∀ i < 2 ^ m.k, ∀ j < 2 ^ m.k, m.F i j = G.at m.k i j

def basis (k x : Nat) : Vec K := ⟨k, fun i => if i = x then 1 else 0⟩

def Vec.add (a b : Vec K) : Vec K := ⟨a.k, fun i => a.f i + b.f i⟩
def Vec.scale (c : C K) (v : Vec K) : Vec K := ⟨v.k, fun i => v.f i * c⟩
/-- `a` on the high qubits. -/
def Vec.kron (a b : Vec K) : Vec K := ⟨a.k + b.k, fun i => a.f (i / 2 ^ b.k) * b.f (i % 2 ^ b.k)⟩
def Mat.scale (c : C K) (m : Mat K) : Mat K := ⟨m.k, fun i j => m.F i j * c⟩
def Mat.apply (m : Mat K) (v : Vec K) : Vec K :=
  ⟨v.k, fun i => ∑ j ∈ range (2 ^ v.k), m.at v.k i j * v.f j⟩
def Mat.add (a b : Mat K) : Mat K := ⟨max a.k b.k, fun i j => a.at (max a.k b.k) i j + b.at (max a.k b.k) i j⟩
def Mat.mul (a b : Mat K) : Mat K :=
  ⟨max a.k b.k, fun i j => ∑ m ∈ range (2 ^ max a.k b.k), a.at (max a.k b.k) i m * b.at (max a.k b.k) m j⟩
def Mat.kron (a b : Mat K) : Mat K :=
  ⟨a.k + b.k, fun i j => a.F (i / 2 ^ b.k) (j / 2 ^ b.k) * b.F (i % 2 ^ b.k) (j % 2 ^ b.k)⟩

/-- Sampling a basis state of `j` qubits from the amplitudes `f`, highest qubit first: qubit `j` is 0 when the
draw is below the conditional probability of 0. -/
def sample (draw : Nat → K) : (j t : Nat) → (f : Nat → C K) → Nat
  | 0, _, _ => 0
  | j + 1, t, f =>
    if draw t < (∑ i ∈ range (2 ^ j), (f i).mag2) / (∑ i ∈ range (2 ^ (j + 1)), (f i).mag2) then
      sample draw j (t + 1) f
    else 2 ^ j + sample draw j (t + 1) (fun i => f (2 ^ j + i))

/-- The characters of a measurement result, highest qubit first; `true` is '1'. -/
def bits (k x : Nat) : List Bool := ((List.range k).map x.testBit).reverse

/-- The state after qubit `q` was found to be `b`, renormalised. -/
def Vec.collapse (sqrt : K → K) (v : Vec K) (q : Nat) (b : Bool) : Vec K :=
  ⟨v.k, fun i => if i.testBit q = b then v.f i * ⟨sqrt (1 / v.marg q b), 0⟩ else 0⟩

/-- API calls; vectors and matrices are named by their position in the list of live handles, results are
appended.  Random draws are arguments. -/
inductive Cmd (K : Type) [Field K] where
  | zero (n : Nat)
  | one (n : Nat)
  | ident
  | gate (n : Nat) (g : Nat → Nat → C K) (t : Nat) (cs : List Ctrl)
  | gate2 (n : Nat) (g : Nat → Nat → C K) (t0 t1 : Nat) (cs : List Ctrl)
  | cx (n t c : Nat)
  | swap (n t0 t1 : Nat)
  | cswap (n t0 t1 c : Nat)
  | mv (m v : Nat)
  | vadd (a b : Nat)
  | vkron (a b : Nat)
  | scale (v : Nat) (c : C K)
  | mscale (m : Nat) (c : C K)
  | mmul (a b : Nat)
  | madd (a b : Nat)
  | mkron (a b : Nat)
  | gc (force : Bool) (keep : List Nat)
  | gcMat (force : Bool) (keep : List Nat)
  | getVector (v : Nat)
  | getMatrix (m n : Nat)
  | probabilities (v : Nat)
  | measureAll (v : Nat) (collapse : Bool) (draw : Nat → K)
  | measureOne (v q : Nat) (eps : K)
  | measureOneCollapsing (v q : Nat) (eps draw : K)

/-- What the caller sees. -/
inductive Obs (K : Type) [Field K] where
  | unit
  | vec (l : List (Option (C K)))
  | mat (l : List (List (Option (C K))))
  | probs (l : List K)
  | str (l : List Bool)
  | num (x : K)
  | char (b : Bool)
  | throw

/-- The live handles. -/
structure Heap (K : Type) [Field K] where
  vs : List (Vec K)
  ms : List (Mat K)

def Heap.addV (h : Heap K) (v : Vec K) : Heap K := ⟨h.vs ++ [v], h.ms⟩
def Heap.addM (h : Heap K) (m : Mat K) : Heap K := ⟨h.vs, h.ms ++ [m]⟩

/-- The effect of a call on plain values. -/
def step (sqrt : K → K) (h : Heap K) : Cmd K → Option (Heap K × Obs K)
  | .zero n => some (h.addV (basis n 0), .unit)
  | .one n => some (h.addV (basis n (2 ^ n - 1)), .unit)
  | .ident => some (h.addM ⟨0, fun _ _ => 1⟩, .unit)
  | .gate n g t cs => some (h.addM ⟨n, gate1 n g t cs⟩, .unit)
  | .gate2 n g t0 t1 cs => some (h.addM ⟨n, Spec.gate2 n g t0 t1 cs⟩, .unit)
  | .cx n t c => some (h.addM (permM n (cnot t c)), .unit)
  | .swap n t0 t1 => some (h.addM (permM n (exch t0 t1)), .unit)
  | .cswap n t0 t1 c => some (h.addM (permM n fun j => if j.testBit c then exch t0 t1 j else j), .unit)
  | .mv m v => do some (h.addV ((← h.ms[m]?).apply (← h.vs[v]?)), .unit)
  | .vadd a b => do some (h.addV ((← h.vs[a]?).add (← h.vs[b]?)), .unit)
  | .vkron a b => do some (h.addV ((← h.vs[a]?).kron (← h.vs[b]?)), .unit)
  | .scale v c => do some (h.addV ((← h.vs[v]?).scale c), .unit)
  | .mscale m c => do some (h.addM ((← h.ms[m]?).scale c), .unit)
  | .mmul a b => do some (h.addM ((← h.ms[a]?).mul (← h.ms[b]?)), .unit)
  | .madd a b => do some (h.addM ((← h.ms[a]?).add (← h.ms[b]?)), .unit)
  | .mkron a b => do some (h.addM ((← h.ms[a]?).kron (← h.ms[b]?)), .unit)
  | .gc _ keep => do some (⟨← keep.mapM (h.vs[·]?), h.ms⟩, .unit)
  | .gcMat _ keep => do some (⟨h.vs, ← keep.mapM (h.ms[·]?)⟩, .unit)
  | .getVector v => do
    let v ← h.vs[v]?
    some (h, .vec ((List.range (2 ^ v.k)).map fun i => some (v.f i)))
  | .getMatrix m n => do
    let m ← h.ms[m]?
    some (h, .mat ((List.range (2 ^ n)).map fun i => (List.range (2 ^ n)).map fun j => some (m.at n i j)))
  | .probabilities v => do
    let v ← h.vs[v]?
    some (h, .probs ((List.range (2 ^ v.k)).map fun i => (v.f i).mag2 / v.norm2))
  | .measureAll v c draw => do
    let w ← h.vs[v]?
    let x := sample draw w.k 0 w.f
    some (⟨h.vs.set v (if c then basis w.k x else w), h.ms⟩, .str (bits w.k x))
  | .measureOne v q eps => do
    let v ← h.vs[v]?
    some (h, if eps < |v.norm2 - 1| then .throw else .num (v.marg q false / v.norm2))
  | .measureOneCollapsing v q eps draw => do
    let w ← h.vs[v]?
    if eps < |w.norm2 - 1| then some (h, .throw) else
    let b := !decide (draw < w.marg q false / w.norm2)
    some (⟨h.vs.set v (w.collapse sqrt q b), h.ms⟩, .char b)

/-- What the caller must respect: handles exist, qubit counts fit (at most 100 qubits; 30 for dense read-outs),
targets and controls are distinct qubits, read-outs and measurements are of nonzero states, draws are in
[0, 1).  The right operand of `mm_kronecker` must not be an identity on its top qubit. -/
def pre (limit : Nat) (h : Heap K) : Cmd K → Prop
  | .zero n | .one n => 0 < n ∧ n ≤ limit
  | .ident => True
  | .gate n _ t cs => t < n ∧ n ≤ limit ∧ cs.Pairwise (fun a b => a.qubit < b.qubit) ∧ ∀ c ∈ cs, c.qubit ≠ t
  | .gate2 n _ t0 t1 cs => t0 < n ∧ t1 < n ∧ t0 ≠ t1 ∧ n ≤ limit ∧ cs.Pairwise (fun a b => a.qubit < b.qubit) ∧
      ∀ c ∈ cs, c.qubit ≠ t0 ∧ c.qubit ≠ t1
  | .cx n t c => t < n ∧ c < n ∧ t ≠ c ∧ n ≤ limit
  | .swap n t0 t1 => t0 < n ∧ t1 < n ∧ t0 ≠ t1 ∧ n ≤ limit
  | .cswap n t0 t1 c => t0 < n ∧ t1 < n ∧ c < n ∧ t0 ≠ t1 ∧ c ≠ t0 ∧ c ≠ t1 ∧ n ≤ limit
  | .mv m v => ∃ M V, h.ms[m]? = some M ∧ h.vs[v]? = some V ∧ M.k ≤ V.k
  | .vadd a b => ∃ A B, h.vs[a]? = some A ∧ h.vs[b]? = some B ∧ A.k = B.k
  | .vkron a b => ∃ A B, h.vs[a]? = some A ∧ h.vs[b]? = some B ∧ A.Nonzero ∧ B.Nonzero ∧ A.k + B.k ≤ limit
  | .scale v _ => ∃ V, h.vs[v]? = some V
  | .mscale m _ => ∃ M, h.ms[m]? = some M
  | .mmul a b | .madd a b => ∃ A B, h.ms[a]? = some A ∧ h.ms[b]? = some B
  | .mkron a b => ∃ A B, h.ms[a]? = some A ∧ h.ms[b]? = some B ∧ A.k + B.k ≤ limit ∧
      (0 < B.k → ¬ B.TopIdentity)
  | .gc _ keep => ∀ i ∈ keep, ∃ V, h.vs[i]? = some V
  | .gcMat _ keep => ∀ i ∈ keep, ∃ M, h.ms[i]? = some M
  | .getVector v => ∃ V, h.vs[v]? = some V ∧ V.Nonzero ∧ V.k ≤ 30
  | .getMatrix m n => ∃ M, h.ms[m]? = some M ∧ M.k ≤ n ∧ n ≤ 30
  | .probabilities v => ∃ V, h.vs[v]? = some V ∧ V.Nonzero ∧ V.k ≤ 30
  | .measureAll v _ draw => ∃ V, h.vs[v]? = some V ∧ V.Nonzero ∧ ∀ u < V.k, 0 ≤ draw u ∧ draw u < 1
  | .measureOne v q _ => ∃ V, h.vs[v]? = some V ∧ V.Nonzero ∧ q < V.k
  | .measureOneCollapsing v q _ draw => ∃ V, h.vs[v]? = some V ∧ V.Nonzero ∧ q < V.k ∧ 0 ≤ draw ∧ draw < 1

/-- A program of calls: the final heap and the list of answers, `none` if some call breaks `pre`. -/
inductive Runs (sqrt : K → K) (limit : Nat) : List (Cmd K) → Heap K → List (Obs K) → Prop
  | nil : Runs sqrt limit [] ⟨[], []⟩ []
  | cons {cs h os c h' o} : Runs sqrt limit cs h os → pre limit h c → step sqrt h c = some (h', o) →
      Runs sqrt limit (cs ++ [c]) h' (os ++ [o])

end QDD.Spec
