import Verif.Py.Backend
/-!
# Grover search as a program of API calls (test/test_performance.cpp 5-137; src/algorithms/grover.cpp 6-154)

The program is modelled as a client of the engine (`Py.Client`): it makes gates, multiplies them into one iteration
matrix, applies that matrix to the state the computed number of times, and (for the search) measures all qubits.
Simplifications: the oracle string is an argument instead of the output of a seeded `mt19937_64`; `CalculateIterations`
is over the real numbers (`long double` in the code); timing output is left out.
-/

set_option linter.unusedSectionVars false
set_option linter.unusedVariables false
set_option linter.unusedSimpArgs false

namespace QDD.Grover
open Spec Api Gate Py Py.Client

noncomputable section

variable {α : Type}

/-- `CalculateIterations` (test_performance.cpp 5-14, grover.cpp 6-24). -/
def iterations (n : Nat) : Nat := if n ≤ 3 then 1 else ⌊Real.pi / 4 * (2 : ℝ) ^ ((n : ℝ) / 2)⌋₊

/-- The gates of a vector `std::vector<mEdge> g` made one after another; the continuation gets their handles. -/
def makeAll : List (Cmd ℝ) → List Nat → (List Nat → Client α) → Client α
  | [], acc, k => k acc
  | c :: cs, acc, k => .call c fun _ _ nm => makeAll cs (acc ++ [nm - 1]) k

/-- The loop of `buildUnitary` (test_performance.cpp 22-25): `rhs = mm_multiply(g[i], rhs)`. -/
def buildLoop : List Nat → Nat → (Nat → Client α) → Client α
  | [], rhs, k => k rhs
  | g :: gs, rhs, k => .call (.mmul g rhs) fun _ _ nm => buildLoop gs (nm - 1) k

/-- `buildUnitary` (test_performance.cpp 16-27); the empty vector gives an edge without node, of which every use fails. -/
def buildUnitary : List Nat → (Nat → Client α) → Client α
  | [], _ => .raise
  | g :: gs, k => buildLoop gs g k

/-- The controls of the oracle (test_performance.cpp 34-38): qubit `i` positive where the string has a '1'. -/
def oracleControls (oracle : List Bool) (n : Nat) : List Ctrl :=
  (List.range n).map fun i => ⟨i, !oracle.getD i false⟩

/-- `Hmat` on the data qubits (test_performance.cpp 51-53, 77-79, 113-115). -/
def allH (n : Nat) : List (Cmd ℝ) := (List.range n).map fun i => .gate (n + 1) Hmat i []
/-- `Xmat` on the data qubits (test_performance.cpp 55-57, 71-73). -/
def allX (n : Nat) : List (Cmd ℝ) := (List.range n).map fun i => .gate (n + 1) Xmat i []

/-- The gates of `groverIteration` (test_performance.cpp 29-79), in the order of the vector `g`. -/
def iterationGates (oracle : List Bool) (n : Nat) : List (Cmd ℝ) :=
  [.gate (n + 1) Zmat n (oracleControls oracle n), .ident] ++ allH n ++ allX n ++
  [.gate (n + 1) Hmat (n - 1) [],
   .gate (n + 1) Xmat (n - 1) ((List.range (n - 1)).map fun i => ⟨i, false⟩),
   .gate (n + 1) Hmat (n - 1) []] ++ allX n ++ allH n

/-- The setup gates (test_performance.cpp 108-116). -/
def setupGates (n : Nat) : List (Cmd ℝ) := .gate (n + 1) Xmat n [] :: allH n

/-- `state = mv_multiply(full_iteration, state)`, `r` times. -/
def applyN (m : Nat) : Nat → Nat → (Nat → Client α) → Client α
  | 0, v, k => k v
  | r + 1, v, k => .call (.mv m v) fun _ nv _ => applyN m r (nv - 1) k

/-- `while ((iterations - j_pre) % 8 != 0)` (test_performance.cpp 124-127); the number is `iterations - j_pre`. -/
def preLoop (m : Nat) : Nat → Nat → (Nat → Nat → Client α) → Client α
  | 0, v, k => k 0 v
  | r + 1, v, k =>
    if (r + 1) % 8 ≠ 0 then .call (.mv m v) fun _ nv _ => preLoop m r (nv - 1) k else k (r + 1) v

/-- `for (j = j_pre; j < iterations; j += 8)` with eight applications (test_performance.cpp 129-138); `r` bounds the
number of rounds, the number is `iterations - j`. -/
def mainLoop (m : Nat) : Nat → Nat → Nat → (Nat → Client α) → Client α
  | 0, _, v, k => k v
  | fuel + 1, r, v, k => if r = 0 then k v else applyN m 8 v fun v => mainLoop m fuel (r - 8) v k

/-- `grover` (test_performance.cpp 84-139). -/
def grover (oracle : List Bool) (n : Nat) (k : Nat → Client α) : Client α :=
  makeAll (iterationGates oracle n) [] fun g =>
  buildUnitary g fun full =>
  makeAll (setupGates n) [] fun s =>
  buildUnitary s fun setup =>
  .call (.zero (n + 1)) fun _ nv _ =>
  .call (.mv setup (nv - 1)) fun _ nv _ =>
  preLoop full (iterations n) (nv - 1) fun r v =>
  mainLoop full (iterations n) r v k

/-- The string `measureAll` returns. -/
def answer : Obs ℝ → Client (List Bool)
  | .str l => .ret l
  | _ => .raise

/-- Search: the state is measured with fresh draws (dd.cpp 1611-1659). -/
def search (oracle : List Bool) (n : Nat) : Client (List Bool) :=
  grover oracle n fun v =>
  drawN (n + 1) fun us => .call (.measureAll v false fun t => us.getD t 0) fun o _ _ => answer o

end
end QDD.Grover
