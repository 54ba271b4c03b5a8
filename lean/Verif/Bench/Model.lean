import Mathlib.Data.Nat.Totient
import Mathlib.Data.Nat.Size
import Mathlib.Tactic.Ring
/-!
# The factoring circuit of the benchmark (bench/QuantumFactoring.py), `add_construct = "GT-ADD"`

The object builds a Qiskit circuit gate by gate and keeps two lists of qubits, `clean_ancilla` and
`dirty_ancilla`, from which it takes auxiliary qubits for gates with more than two controls. A Python exception
(`IndexError`, `ValueError`) is `none`. With `decompose_toffoli` a gate `ccx` of the list stands for the fifteen gates of
lines 352-366 (`Toffoli.lean`). Gate counters and printed messages are left out.
-/

namespace QDD.Bench

/-- The gates of the Qiskit circuit: `x`, `cx`, `ccx`, `h`, and `mcp(-pi / 2**k, [c], t)` (`cp k c t`). -/
inductive G
  | x (t : Nat)
  | cx (c t : Nat)
  | ccx (c1 c2 t : Nat)
  | h (t : Nat)
  | cp (k c t : Nat)
  deriving DecidableEq, Repr

/-- The attributes of the object (QuantumFactoring.py 19-59). -/
structure B where
  N : Nat
  n : Nat
  useClean : Bool
  dec : Bool
  gates : List G
  clean : List Nat
  dirty : List Nat
  deriving DecidableEq, Repr

/-- `__init__` (19-59): `n_bits = len(bin(N)) - 2`, `num_qubits = 4*n_bits + 2`. -/
def init (N : Nat) (useClean dec : Bool) : B := ⟨N, N.size, useClean, dec, [], List.range (4 * N.size + 2), []⟩

/-- `self.y[i]` (50): the first register has `m = 2*n_bits` qubits `x[i] = i`. -/
def B.y (b : B) (i : Nat) : Nat := 2 * b.n + i
/-- `self.R3` (51). -/
def B.R3 (b : B) : Nat := 3 * b.n
/-- `self.R2[i]` (52). -/
def B.R2 (b : B) (i : Nat) : Nat := 3 * b.n + 1 + i
/-- `self.R1` (53). -/
def B.R1 (b : B) : Nat := 4 * b.n + 1

/-- `to_dirty` (80-83). -/
def toDirty (b : B) (q : Nat) : B :=
  if q ∈ b.clean then { b with clean := b.clean.erase q, dirty := b.dirty ++ [q] } else b

/-- `to_clean` (85-88). -/
def toClean (b : B) (q : Nat) : B :=
  if q ∈ b.dirty then { b with dirty := b.dirty.erase q, clean := b.clean ++ [q] } else b

def emit (b : B) (g : G) : B := { b with gates := b.gates ++ [g] }

/-- `add_X_gate` (379-386). -/
def addX (b : B) (t : Nat) : B := toDirty (emit b (.x t)) t
/-- `add_c_not_gate` (388-395). -/
def addCx (b : B) (c t : Nat) : B := toDirty (emit b (.cx c t)) t
/-- What the decomposition of `add_c2_not_gate` (352-366) marks as dirty: the targets of its gates, in the order of their
first occurrence (`add_H_gate` 166, `add_c_not_gate` 394, `add_T_gate` 403, `add_Tdag_gate` 412). -/
def marks (b : B) (c1 c2 t : Nat) : B := if b.dec then toDirty (toDirty (toDirty b t) c2) c1 else b
/-- `add_c2_not_gate` (347-377). -/
def addCcx (b : B) (c1 c2 t : Nat) (ancilla : Bool) : B :=
  let b := marks (emit b (.ccx c1 c2 t)) c1 c2 t
  if ancilla then toClean b t else toDirty b t
/-- `add_H_gate` (162-166). -/
def addH (b : B) (t : Nat) : B := toDirty (emit b (.h t)) t

/-- `for i in range(k): b = f(i, b)`. -/
def loop (f : Nat → B → Option B) : Nat → B → Option B
  | 0, b => some b
  | k + 1, b => (loop f k b).bind (f k)

/-- `for i in range(lo + k - 1, lo - 1, -1): b = f(i, b)`. -/
def loopDown (f : Nat → B → Option B) (lo : Nat) : Nat → B → Option B
  | 0, b => some b
  | k + 1, b => (f (lo + k) b).bind (loopDown f lo k)

/-- One step `add_c2_not_gate(controls[i], dirty[i], dirty[i-1])` of 331-332, 334-335, 338-339, 341-342. -/
def chainStep (ctl di : List Nat) (i : Nat) (b : B) : Option B :=
  some (addCcx b (ctl.getD i 0) (di.getD i 0) (di.getD (i - 1) 0) false)

/-- The network with dirty auxiliary qubits (328-342). Python raises `IndexError` when there are too few. -/
def dirtyNet (b : B) (ctl di : List Nat) (t : Nat) : Option B :=
  let k := ctl.length
  if di.length < k - 2 then none
  else do
    let b := addCcx b (ctl.getD 0 0) (di.getD 0 0) t false
    let b ← loop (fun i => chainStep ctl di (i + 1)) (k - 3) b
    let b := addCcx b (ctl.getD (k - 2) 0) (ctl.getD (k - 1) 0) (di.getD (k - 3) 0) false
    let b ← loopDown (chainStep ctl di) 1 (k - 3) b
    let b := addCcx b (ctl.getD 0 0) (di.getD 0 0) t false
    let b ← loop (fun i => chainStep ctl di (i + 1)) (k - 3) b
    let b := addCcx b (ctl.getD (k - 2) 0) (ctl.getD (k - 1) 0) (di.getD (k - 3) 0) false
    loopDown (chainStep ctl di) 1 (k - 3) b

/-- The auxiliary qubits: a list without the target and the controls (305-313). -/
def avail (l ctl : List Nat) (t : Nat) : List Nat := ctl.foldl List.erase (l.erase t)

/-- `add_ck_not_circuit` (286-343); `own` says whether the object's lists are passed (otherwise the default
empty lists). -/
def ckNot (b : B) (ctl : List Nat) (t : Nat) (own : Bool) : Option B :=
  match ctl with
  | [] => some (addX b t)
  | [c] => some (addCx b c t)
  | [c1, c2] => some (addCcx b c1 c2 t false)
  | c1 :: c2 :: c3 :: cs =>
    let cl0 := if own then b.clean else []
    let di0 := if own then b.dirty else []
    let cl := if b.useClean then cl0 else []
    let di := if b.useClean then di0 else di0 ++ cl0
    match avail cl (c1 :: c2 :: c3 :: cs) t with
    | anc :: _ =>
      match ckNot (addCcx b c1 c2 anc false) (c3 :: cs ++ [anc]) t own with
      | none => none
      | some b => some (addCcx b c1 c2 anc true)
    | [] => dirtyNet b (c1 :: c2 :: c3 :: cs) (avail di (c1 :: c2 :: c3 :: cs) t) t
termination_by ctl.length

/-- One bit of `add_GT_ADD_circuit` (278-284): add `2^i` to the register `R2`, `R1`. -/
def gtBit (ctl : List Nat) (i : Nat) (b : B) : Option B :=
  (ckNot b (ctl ++ (List.range' i (b.n - i)).map b.R2) b.R1 true).bind
    (loopDown (fun j b => ckNot b (ctl ++ (List.range' i (j - i)).map b.R2) (b.R2 j) true) i (b.n - i))

/-- `add_GT_ADD_circuit` (275-284). -/
def gtAdd (p : Nat) (ctl : List Nat) (b : B) : Option B :=
  loop (fun i b => if p.testBit i then gtBit ctl i b else some b) b.n b

/-- `add_mod_add_circuit_with_GT_ADD` (218-237). -/
def modAdd (d : Nat) (ctl : List Nat) (b : B) : Option B := do
  let b ← gtAdd (d + 2 ^ b.n - b.N) ctl b
  let b ← ckNot b ctl b.R1 false
  let b ← ckNot b (ctl ++ [b.R1]) b.R3 true
  let b ← ckNot b ctl b.R1 false
  let b ← gtAdd b.N (ctl ++ [b.R3]) b
  let b ← ckNot b ctl b.R1 false
  let b ← gtAdd (2 ^ b.n - d) ctl b
  let b ← ckNot b (ctl ++ [b.R1]) b.R3 true
  let b := toClean b b.R3
  let b ← gtAdd d ctl b
  let b ← ckNot b ctl b.R1 false
  some (toClean b b.R1)

/-- `add_mod_ps_circuit` (200-210) with one control `x`. -/
def modPs (d x : Nat) (b : B) : Option B :=
  loop (fun i b => modAdd ((2 % b.N) ^ i * d % b.N) [x, b.y i] b) b.n b

/-- `add_controlled_swap` (186-198) with one control `x`. -/
def cSwap (x q1 q2 : Nat) (b : B) : Option B := do
  let b ← ckNot b [q2] q1 false
  let b ← ckNot b [x, q1] q2 false
  ckNot b [q2] q1 false

/-- `pow(d, -1, N)`: the inverse, or `ValueError`. -/
def invMod (d N : Nat) : Option Nat := (List.range N).find? (fun e => d * e % N = 1 % N)

/-- `add_mod_mul_circuit` (168-184). -/
def modMul (d x : Nat) (b : B) : Option B := do
  let b ← modPs d x b
  let b ← loop (fun i b => cSwap x (b.y i) (b.R2 i) b) b.n b
  let e ← invMod d b.N
  let b ← modPs ((b.N - e) % b.N) x b
  loop (fun i b => some (toClean b (b.R2 i))) b.n b

/-- `a**(2**i) mod N` as computed in 147-156: `2**i` is reduced modulo `phi`. -/
def expo (N i : Nat) : Nat := Nat.iterate (fun t => t * 2 % N.totient) i 1
def powMod (a N k : Nat) : Nat := Nat.iterate (fun t => t * a % N) k 1

/-- `add_mod_exp_circuit(a, with_Hadamard)` (142-160). -/
def modExp (a : Nat) (had : Bool) (b : B) : Option B :=
  loop (fun i b => modMul (powMod a b.N (expo b.N i)) i (if had then addH b i else b)) (2 * b.n) b

/-- `find_order_algorithm` (90-99) up to the inverse Fourier transform of the first register. -/
def findOrder (N a : Nat) (useClean : Bool) (dec : Bool := false) : Option B :=
  let b := init N useClean dec
  modExp a true (addX b (b.y 0))

/-- `swap_registers(m)` (452-456) with `position = 0`. -/
def swapRegs (m : Nat) (b : B) : Option B :=
  loop (fun i b => do
    let b ← ckNot b [i] (m - i - 1) false
    let b ← ckNot b [m - i - 1] i false
    ckNot b [i] (m - i - 1) false) (m / 2) b

/-- One step of `inverse_qft_rotations` (463-474) with `position = 0`: the controlled rotations (`add_CkR_gate`,
435-449, one control) and the Hadamard gate of qubit `i`. -/
def invRot (i : Nat) (b : B) : Option B :=
  (loopDown (fun j b => some (emit b (.cp (i - j) j i))) 0 i b).map (fun b => addH b i)

/-- `add_inverse_qft_circuit(m)` (458-461). -/
def invQft (m : Nat) (b : B) : Option B := (swapRegs m b).bind (loop invRot m)

/-- `find_order_algorithm(a, measure=False)` (90-102). -/
def orderCircuit (N a : Nat) (useClean : Bool) (dec : Bool := false) : Option B :=
  (findOrder N a useClean dec).bind (fun b => invQft (2 * b.n) b)

/-! ## What the gates do -/

/-- The values of the qubits. -/
abbrev S := Nat → Bool

def set (s : S) (q : Nat) (v : Bool) : S := fun i => if i = q then v else s i

/-- A classical gate on a basis state. -/
def G.on : G → S → S
  | .x t, s => set s t (!s t)
  | .cx c t, s => if s c then set s t (!s t) else s
  | .ccx c1 c2 t, s => if s c1 && s c2 then set s t (!s t) else s
  | .h _, s => s
  | .cp _ _ _, s => s

/-- The gate is classical, its qubits are different and among the first `Q`. -/
def G.Classical (Q : Nat) : G → Prop
  | .x t => t < Q
  | .cx c t => c ≠ t ∧ c < Q ∧ t < Q
  | .ccx c1 c2 t => c1 ≠ t ∧ c2 ≠ t ∧ c1 ≠ c2 ∧ c1 < Q ∧ c2 < Q ∧ t < Q
  | .h _ => False
  | .cp _ _ _ => False

/-- A list of gates on a basis state. -/
def exec (gs : List G) (s : S) : S := gs.foldl (fun s g => g.on s) s

end QDD.Bench
