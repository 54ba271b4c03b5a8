import Verif.Core.Measure
/-!
# Measurement for arbitrary `double` arithmetic

The functions of `Verif/Core/Measure.lean` again, over an arbitrary type of weights and an arbitrary type of real numbers
with no laws (so also for IEEE doubles).  At the end: on `Cx K tol` they are the functions of `Core/Measure`.
-/

set_option linter.unusedSectionVars false
set_option linter.unusedVariables false
set_option linter.unusedSimpArgs false

namespace QDD

/-- Operations on `double` used by the measurement code, with no laws. `far s e` is `std::abs(s - 1) > e` (dd.cpp 1845,
1890), `mag2` is `Complex::mag2` (dd.h 57-59), `ofReal x` is `std_complex{x, 0}` (dd.cpp 1877). -/
class ROps (R W : Type) where
  zero : R
  one : R
  half : R
  add : R → R → R
  sub : R → R → R
  mul : R → R → R
  div : R → R → R
  lt : R → R → Bool
  eq0 : R → Bool
  far : R → R → Bool
  sqrt : R → R
  mag2 : W → R
  ofReal : R → W

namespace Fl
open Prog

section model
variable {R W : Type} [WOps W] [ROps R W]

/-- `edge.w.mag2() * x`. -/
def wt (e : Edge W) (x : R) : R := ROps.mul W (ROps.mag2 e.w) x

/-- `assignProbabilities` (dd.cpp 1484-1499). -/
def assignProbs (mem : Nat → Option (VNode W)) : Nat → Edge W → Memo R → Except Err (R × Memo R)
  | f, e, m =>
    match m e.n with
    | some x => .ok (wt e x, m)
    | none => match e.n with
      | none => .ok (wt e (ROps.one W), upd m none (some (ROps.one W)))
      | some p => match f with
        | 0 => .error .overflow
        | f + 1 => match mem p with
          | none => .error .badNode
          | some nd => match assignProbs mem f nd.c0 m with
            | .error er => .error er
            | .ok (a, m) => match assignProbs mem f nd.c1 m with
              | .error er => .error er
              | .ok (b, m) => .ok (wt e (ROps.add W a b), upd m (some p) (some (ROps.add W a b)))

/-- dd.cpp 1618-1620, 1706-1708. -/
def ensureProbs (mem : Nat → Option (VNode W)) (e : Edge W) (m : Memo R) : Except Err (Memo R) :=
  match m e.n with
  | some _ => .ok m
  | none => match assignProbs mem (NQUBITS + 1) e m with
    | .error er => .error er
    | .ok (_, m) => .ok m

/-- The inner loop of `probabilities` (dd.cpp 1507-1523). -/
def probWalk (mem : Nat → Option (VNode W)) (m : Memo R) (i : Nat) : Nat → Option Nat → R → Except Err R
  | 0, _, prob => .ok prob
  | j + 1, cur, prob => match cur with
    | none => .error .badNode
    | some p => match mem p with
      | none => .error .badNode
      | some nd => match m nd.c0.n, m nd.c1.n with
      | some x0, some x1 =>
        let p0 := ROps.mul W x0 (ROps.mag2 nd.c0.w)
        let p1 := ROps.mul W x1 (ROps.mag2 nd.c1.w)
        let tmp := ROps.add W p0 p1
        let p0 := if ROps.lt W (ROps.zero W) tmp then ROps.div W p0 tmp else p0
        let prob := if i.testBit j then ROps.mul W prob (ROps.sub W (ROps.one W) p0) else ROps.mul W prob p0
        if ROps.eq0 W prob then probWalk mem m i j cur prob
        else probWalk mem m i j (nd.child (i.testBit j)).n prob
      | _, _ => .error .badNode

/-- The outer loop of `probabilities` (dd.cpp 1505-1525). -/
def probLoop (mem : Nat → Option (VNode W)) (m : Memo R) (lv : Nat) (root : Option Nat) :
    Nat → Nat → Except Err (List R)
  | 0, _ => .ok []
  | n + 1, i => match probWalk mem m i lv root (ROps.one W) with
    | .error er => .error er
    | .ok x => match probLoop mem m lv root n (i + 1) with
      | .error er => .error er
      | .ok l => .ok (x :: l)

/-- `probabilities` (dd.cpp 1501-1527). -/
def probabilities (s : St W) (e : Edge W) (m : Memo R) : Except Err (List R × Memo R) :=
  match evar s.vt.mem e.n with
  | .error er => .error er
  | .ok v => match assignProbs s.vt.mem (NQUBITS + 1) e m with
    | .error er => .error er
    | .ok (_, m) =>
      if v + 1 < 0 ∨ 31 ≤ v + 1 then .error .overflow else
      match probLoop s.vt.mem m (v + 1).toNat e.n (2 ^ (v + 1).toNat) 0 with
      | .error er => .error er
      | .ok l => .ok (l, m)

/-- The sampling loop of `measureAll` (dd.cpp 1622-1643). -/
def sampleLoop (mem : Nat → Option (VNode W)) (m : Memo R) (draw : Nat → R) :
    Nat → Nat → Option Nat → List Bool → Except Err (List Bool)
  | 0, _, _, res => .ok res
  | i + 1, t, cur, res => match cur with
    | none => .error .badNode
    | some p => match mem p with
      | none => .error .badNode
      | some nd => match m nd.c0.n, m nd.c1.n with
      | some x0, some x1 =>
        let p0 := ROps.mul W x0 (ROps.mag2 nd.c0.w)
        let p1 := ROps.mul W x1 (ROps.mag2 nd.c1.w)
        let tmp := ROps.add W p0 p1
        let p0 := if ROps.eq0 W tmp then ROps.half W else ROps.div W p0 tmp
        if ROps.lt W (draw t) p0 then sampleLoop mem m draw i (t + 1) nd.c0.n res
        else if nd.v < 0 ∨ (res.length : Int) ≤ nd.v then .error .oob
        else sampleLoop mem m draw i (t + 1) nd.c1.n (res.set nd.v.toNat true)
      | _, _ => .error .badNode

/-- The sampling part of `measureAll` (dd.cpp 1611-1643). -/
def sampleAll (s : St W) (e : Edge W) (m : Memo R) (draw : Nat → R) : Except Err (List Bool × Memo R) :=
  match evar s.vt.mem e.n with
  | .error er => .error er
  | .ok v =>
    match ensureProbs s.vt.mem e m with
    | .error er => .error er
    | .ok m => match sampleLoop s.vt.mem m draw (v + 1).toNat 0 e.n
          (List.replicate (v + 1).toNat false) with
      | .error er => .error er
      | .ok res => .ok (res, m)

/-- The rebuild loop of `measureAll` with `collapse` (dd.cpp 1645-1657). -/
def collapseLoop (env : Env W) : List Bool → Nat → Edge W → P W (Edge W)
  | [], _, e => pure e
  | b :: bs, p, e => do
    let e ← mkV env p (if b then zeroE else e) (if b then e else zeroE)
    collapseLoop env bs (p + 1) e

/-- `measureAll` (dd.cpp 1611-1659). -/
def measureAll (env : Env W) (e : Edge W) (collapse : Bool) (m : Memo R) (draw : Nat → R) :
    P W (List Bool × Edge W × Memo R) := do
  let (res, m) ← peek fun s => sampleAll s e m draw
  let e' ← if collapse then collapseLoop env res 0 oneE else pure e
  pure (res.reverse, e', m)

/-- Handling one child (dd.cpp 1676-1687, 1689-1700). -/
def bfsChild (c : Edge W) (prob : R) (b : Bfs R) : Bfs R :=
  if WOps.az c.w then b else
  let tmp1 := ROps.mul W prob (ROps.mag2 c.w)
  if c.n ∈ b.visited then { b with pm := upd b.pm c.n (ROps.add W (b.pm c.n) tmp1) }
  else ⟨upd b.pm c.n tmp1, c.n :: b.visited, b.q ++ [c.n]⟩

/-- The loop `while (q.front()->v != index)` (dd.cpp 1671-1701). -/
def bfsLoop (mem : Nat → Option (VNode W)) (index : Int) : Nat → Bfs R → Except Err (Bfs R)
  | f, b => match b.q with
    | [] => .error .badNode
    | none :: _ => .error .badNode
    | some p :: qs => match mem p with
      | none => .error .badNode
      | some nd =>
        if nd.v = index then .ok b else
        match f with
        | 0 => .error .overflow
        | f + 1 =>
          let prob := b.pm (some p)
          bfsLoop mem index f (bfsChild nd.c1 prob (bfsChild nd.c0 prob { b with q := qs }))

/-- The final loop (dd.cpp 1710-1723). -/
def bfsSum (mem : Nat → Option (VNode W)) (m : Memo R) (pm : Option Nat → R) :
    List (Option Nat) → R × R → Except Err (R × R)
  | [], acc => .ok acc
  | n :: qs, acc => match n with
    | none => .error .badNode
    | some p => match mem p with
      | none => .error .badNode
      | some nd => match m nd.c0.n, m nd.c1.n with
      | some x0, some x1 =>
        let a := if WOps.az nd.c0.w then acc.1 else
          ROps.add W acc.1 (ROps.mul W (ROps.mul W (pm n) x0) (ROps.mag2 nd.c0.w))
        let b := if WOps.az nd.c1.w then acc.2 else
          ROps.add W acc.2 (ROps.mul W (ROps.mul W (pm n) x1) (ROps.mag2 nd.c1.w))
        bfsSum mem m pm qs (a, b)
      | _, _ => .error .badNode

/-- `determineMeasurementProbabilities` (dd.cpp 1661-1725). -/
def detProbs (s : St W) (e : Edge W) (index : Nat) (m : Memo R) : Except Err (R × R × Memo R) :=
  match bfsLoop s.vt.mem index (2 ^ (NQUBITS + 1))
      ⟨upd (fun _ => ROps.zero W) e.n (ROps.mag2 e.w), [e.n], [e.n]⟩ with
  | .error er => .error er
  | .ok b =>
    match ensureProbs s.vt.mem e m with
    | .error er => .error er
    | .ok m => match bfsSum s.vt.mem m b.pm b.q (ROps.zero W, ROps.zero W) with
      | .error er => .error er
      | .ok (x, y) => .ok (x, y, m)

/-- `measureOne` (dd.cpp 1885-1900). -/
def measureOne (s : St W) (e : Edge W) (index : Nat) (eps : R) (m : Memo R) : Except Err (Option R × Memo R) :=
  match detProbs s e index m with
  | .error er => .error er
  | .ok (pz, po, m) => if ROps.far W (ROps.add W pz po) eps then .ok (none, m) else
    .ok (some (ROps.div W pz (ROps.add W pz po)), m)

/-- `measureOneCollapsing` (dd.cpp 1840-1883). -/
def measureOneCollapsing (env : Env W) (mt : Bool) (e : Edge W) (index : Nat)
    (eps draw : R) (m : Memo R) : P W (Option (Bool × Edge W) × Memo R) := do
  let ((pz, po, m), v) ← peek fun s => match detProbs s e index m with
    | .error er => .error er
    | .ok r => match evar s.vt.mem e.n with
      | .error er => .error er
      | .ok v => .ok (r, v)
  let sum := ROps.add W pz po
  if ROps.far W sum eps then pure (none, m) else do
    let one := !(ROps.lt W draw (ROps.div W pz sum))
    let mm : Nat → Nat → W := fun r c => if r = c ∧ r = nb one then WOps.one else WOps.zero
    let nf := if one then po else pz
    let gate ← makeGate env (v + 1).toNat mm index []
    let x ← mvMul env mt gate e
    pure (some (one, ⟨WOps.mul x.w (ROps.ofReal (ROps.sqrt W (ROps.div W (ROps.one W) nf))), x.n⟩), m)

end model

/-! ## On `Cx K tol` these are the functions of `Core/Measure` -/

section same
variable {K : Type} [Field K] [LinearOrder K] [IsStrictOrderedRing K] {tol : K}

/-- Ordered-field arithmetic. -/
@[reducible] def fieldOps (tol : K) (sqrt : K → K) : ROps K (Cx K tol) where
  zero := 0
  one := 1
  half := 1 / 2
  add := (· + ·)
  sub := (· - ·)
  mul := (· * ·)
  div := (· / ·)
  lt a b := decide (a < b)
  eq0 a := decide (a = 0)
  far s e := decide (e < |s - 1|)
  sqrt := sqrt
  mag2 := Cx.mag2
  ofReal x := ⟨x, 0⟩

variable (sqrt : K → K)

theorem fo_add (a b : K) : (letI := fieldOps tol sqrt; ROps.add (Cx K tol) a b) = (a + b) := rfl
theorem fo_sub (a b : K) : (letI := fieldOps tol sqrt; ROps.sub (Cx K tol) a b) = (a - b) := rfl
theorem fo_mul (a b : K) : (letI := fieldOps tol sqrt; ROps.mul (Cx K tol) a b) = (a * b) := rfl
theorem fo_div (a b : K) : (letI := fieldOps tol sqrt; ROps.div (Cx K tol) a b) = (a / b) := rfl
theorem fo_lt (a b : K) : (letI := fieldOps tol sqrt; ROps.lt (Cx K tol) a b) = (decide (a < b)) := rfl
theorem fo_far (a b : K) : (letI := fieldOps tol sqrt; ROps.far (Cx K tol) a b) = (decide (b < |a - 1|)) := rfl
theorem fo_eq0 (a : K) : (letI := fieldOps tol sqrt; ROps.eq0 (Cx K tol) a) = (decide (a = 0)) := rfl
theorem fo_sqrt (a : K) : (letI := fieldOps tol sqrt; ROps.sqrt (Cx K tol) a) = (sqrt a) := rfl
theorem fo_zero : (letI := fieldOps tol sqrt; (ROps.zero (Cx K tol) : K)) = (0) := rfl
theorem fo_one : (letI := fieldOps tol sqrt; (ROps.one (Cx K tol) : K)) = (1) := rfl
theorem fo_half : (letI := fieldOps tol sqrt; (ROps.half (Cx K tol) : K)) = (1 / 2) := rfl
theorem fo_mag2 (w : Cx K tol) : (letI := fieldOps tol sqrt; (ROps.mag2 w : K)) = w.mag2 := rfl
theorem fo_ofReal (x : K) : (letI := fieldOps tol sqrt; (ROps.ofReal x : Cx K tol)) = ⟨x, 0⟩ := rfl

theorem assignProbs_eq (mem : Nat → Option (VNode (Cx K tol))) : ∀ (f : Nat) (e : Edge (Cx K tol)) (m : Memo K),
    (letI := fieldOps tol sqrt; assignProbs mem f e m) = QDD.assignProbs mem f e m := by
  intro f
  induction f with
  | zero =>
    intro e m
    obtain ⟨w, n⟩ := e
    unfold assignProbs QDD.assignProbs
    try dsimp only
    cases m n
    · cases n <;> rfl
    · rfl
  | succ f ih =>
    intro e m
    obtain ⟨w, n⟩ := e
    unfold assignProbs QDD.assignProbs
    try dsimp only
    cases m n
    · cases n with
      | none => rfl
      | some p =>
        try dsimp only
        cases mem p with
        | none => rfl
        | some nd =>
          try dsimp only at ih ⊢
          rw [ih]
          rcases QDD.assignProbs mem f nd.c0 m with _ | ⟨a, m⟩
          · rfl
          try dsimp only
          rw [ih]
          rcases QDD.assignProbs mem f nd.c1 m with _ | ⟨a, m⟩ <;> rfl
    · rfl

theorem ensureProbs_eq (mem : Nat → Option (VNode (Cx K tol))) (e : Edge (Cx K tol)) (m : Memo K) :
    (letI := fieldOps tol sqrt; ensureProbs mem e m) = QDD.ensureProbs mem e m := by
  unfold ensureProbs QDD.ensureProbs
  try dsimp only
  have := assignProbs_eq sqrt mem (NQUBITS + 1) e m
  try dsimp only at this
  rw [this]
  cases m e.n
  · rcases QDD.assignProbs mem (NQUBITS + 1) e m with _ | ⟨a, m⟩ <;> rfl
  · rfl

theorem probWalk_eq (mem : Nat → Option (VNode (Cx K tol))) (m : Memo K) (i : Nat) :
    ∀ (j : Nat) (cur : Option Nat) (prob : K),
    (letI := fieldOps tol sqrt; probWalk mem m i j cur prob) = QDD.probWalk mem m i j cur prob := by
  intro j
  induction j with
  | zero => intro cur prob; rfl
  | succ j ih =>
    intro cur prob
    try dsimp only at ih ⊢
    unfold probWalk QDD.probWalk
    rcases cur with _ | p
    · rfl
    try dsimp only
    rcases mem p with _ | nd
    · rfl
    try dsimp only
    rcases m nd.c0.n with _ | x0
    · rfl
    rcases m nd.c1.n with _ | x1
    · rfl
    try dsimp only
    simp only [ih, fo_add, fo_sub, fo_mul, fo_div, fo_lt, fo_far, fo_eq0, fo_sqrt, fo_zero, fo_one, fo_half, fo_mag2, fo_ofReal, decide_eq_true_eq]

theorem probLoop_eq (mem : Nat → Option (VNode (Cx K tol))) (m : Memo K) (lv : Nat) (root : Option Nat) :
    ∀ (n i : Nat), (letI := fieldOps tol sqrt; probLoop mem m lv root n i) = QDD.probLoop mem m lv root n i := by
  intro n
  induction n with
  | zero => intro i; rfl
  | succ n ih =>
    intro i
    try dsimp only at ih ⊢
    unfold probLoop QDD.probLoop
    have := probWalk_eq sqrt mem m i lv root 1
    try dsimp only at this
    simp only [fo_one]
    rw [this, ih]
    rcases QDD.probWalk mem m i lv root 1 with _ | x
    · rfl
    rcases QDD.probLoop mem m lv root n (i + 1) with _ | x <;> rfl

theorem probabilities_eq (s : St (Cx K tol)) (e : Edge (Cx K tol)) (m : Memo K) :
    (letI := fieldOps tol sqrt; probabilities s e m) = QDD.probabilities s e m := by
  try dsimp only
  unfold probabilities QDD.probabilities
  rcases evar s.vt.mem e.n with _ | v
  · rfl
  have := assignProbs_eq sqrt s.vt.mem (NQUBITS + 1) e m
  try dsimp only at this ⊢
  rw [this]
  rcases QDD.assignProbs s.vt.mem (NQUBITS + 1) e m with _ | ⟨a, m⟩
  · rfl
  try dsimp only
  split
  · rfl
  have := probLoop_eq sqrt s.vt.mem m (v + 1).toNat e.n (2 ^ (v + 1).toNat) 0
  try dsimp only at this ⊢
  rw [this]
  rcases QDD.probLoop s.vt.mem m (v + 1).toNat e.n (2 ^ (v + 1).toNat) 0 with _ | x <;> rfl

theorem sampleLoop_eq (mem : Nat → Option (VNode (Cx K tol))) (m : Memo K) (draw : Nat → K) :
    ∀ (i t : Nat) (cur : Option Nat) (res : List Bool),
    (letI := fieldOps tol sqrt; sampleLoop mem m draw i t cur res) = QDD.sampleLoop mem m draw i t cur res := by
  intro i
  induction i with
  | zero => intro t cur res; rfl
  | succ i ih =>
    intro t cur res
    try dsimp only at ih ⊢
    unfold sampleLoop QDD.sampleLoop
    rcases cur with _ | p
    · rfl
    try dsimp only
    rcases mem p with _ | nd
    · rfl
    try dsimp only
    rcases m nd.c0.n with _ | x0
    · rfl
    rcases m nd.c1.n with _ | x1
    · rfl
    try dsimp only
    simp only [ih, fo_add, fo_sub, fo_mul, fo_div, fo_lt, fo_far, fo_eq0, fo_sqrt, fo_zero, fo_one, fo_half, fo_mag2, fo_ofReal, decide_eq_true_eq, ne_eq, ite_not]

theorem sampleAll_eq (s : St (Cx K tol)) (e : Edge (Cx K tol)) (m : Memo K) (draw : Nat → K) :
    (letI := fieldOps tol sqrt; sampleAll s e m draw) = QDD.sampleAll s e m draw := by
  try dsimp only
  unfold sampleAll QDD.sampleAll
  rcases evar s.vt.mem e.n with _ | v
  · rfl
  have := ensureProbs_eq sqrt s.vt.mem e m
  try dsimp only at this ⊢
  rw [this]
  rcases QDD.ensureProbs s.vt.mem e m with _ | m
  · rfl
  have := sampleLoop_eq sqrt s.vt.mem m draw (v + 1).toNat 0 e.n (List.replicate (v + 1).toNat false)
  try dsimp only at this ⊢
  rw [this]
  rcases QDD.sampleLoop s.vt.mem m draw (v + 1).toNat 0 e.n (List.replicate (v + 1).toNat false) with _ | x <;> rfl

theorem collapseLoop_eq (env : Env (Cx K tol)) : ∀ (l : List Bool) (p : Nat) (e : Edge (Cx K tol)),
    collapseLoop env l p e = QDD.collapseLoop env l p e := by
  intro l
  induction l with
  | nil => intro p e; rfl
  | cons b l ih => intro p e; unfold collapseLoop QDD.collapseLoop; simp only [ih]

theorem measureAll_eq (env : Env (Cx K tol)) (e : Edge (Cx K tol)) (c : Bool) (m : Memo K) (draw : Nat → K) :
    (letI := fieldOps tol sqrt; measureAll env e c m draw) = QDD.measureAll env e c m draw := by
  try dsimp only
  unfold measureAll QDD.measureAll
  have : ∀ s : St (Cx K tol), (letI := fieldOps tol sqrt; sampleAll s e m draw) = QDD.sampleAll s e m draw :=
    fun s => sampleAll_eq sqrt s e m draw
  try dsimp only at this
  simp only [this, collapseLoop_eq]

theorem bfsLoop_eq (mem : Nat → Option (VNode (Cx K tol))) (index : Int) : ∀ (f : Nat) (b : Bfs K),
    (letI := fieldOps tol sqrt; bfsLoop mem index f b) = QDD.bfsLoop mem index f b := by
  have hc : ∀ (c : Edge (Cx K tol)) (p : K) (b : Bfs K),
      (letI := fieldOps tol sqrt; bfsChild c p b) = QDD.bfsChild c p b := fun _ _ _ => rfl
  intro f
  induction f with
  | zero =>
    intro b
    try dsimp only
    unfold bfsLoop QDD.bfsLoop
    rcases b.q with _ | ⟨_ | p, qs⟩
    · rfl
    · rfl
    try dsimp only
    rcases mem p with _ | nd <;> rfl
  | succ f ih =>
    intro b
    try dsimp only at ih hc ⊢
    unfold bfsLoop QDD.bfsLoop
    rcases b.q with _ | ⟨_ | p, qs⟩
    · rfl
    · rfl
    try dsimp only
    rcases mem p with _ | nd
    · rfl
    try dsimp only
    rw [ih, hc, hc]

theorem bfsSum_eq (mem : Nat → Option (VNode (Cx K tol))) (m : Memo K) (pm : Option Nat → K) :
    ∀ (l : List (Option Nat)) (acc : K × K),
    (letI := fieldOps tol sqrt; bfsSum mem m pm l acc) = QDD.bfsSum mem m pm l acc := by
  intro l
  induction l with
  | nil => intro acc; rfl
  | cons n l ih =>
    intro acc
    try dsimp only at ih ⊢
    unfold bfsSum QDD.bfsSum
    rcases n with _ | p
    · rfl
    try dsimp only
    rcases mem p with _ | nd
    · rfl
    try dsimp only
    rcases m nd.c0.n with _ | x0
    · rfl
    rcases m nd.c1.n with _ | x1
    · rfl
    simp only [ih, fo_add, fo_sub, fo_mul, fo_div, fo_lt, fo_far, fo_eq0, fo_sqrt, fo_zero, fo_one, fo_half, fo_mag2, fo_ofReal]

theorem detProbs_eq (s : St (Cx K tol)) (e : Edge (Cx K tol)) (index : Nat) (m : Memo K) :
    (letI := fieldOps tol sqrt; detProbs s e index m) = QDD.detProbs s e index m := by
  try dsimp only
  unfold detProbs QDD.detProbs
  have h1 := bfsLoop_eq sqrt s.vt.mem index (2 ^ (NQUBITS + 1)) ⟨upd (fun _ => 0) e.n e.w.mag2, [e.n], [e.n]⟩
  have h2 := ensureProbs_eq sqrt s.vt.mem e m
  try dsimp only at h1 h2 ⊢
  simp only [fo_zero, fo_mag2]
  rw [h1, h2]
  rcases QDD.bfsLoop s.vt.mem index (2 ^ (NQUBITS + 1)) ⟨upd (fun _ => 0) e.n e.w.mag2, [e.n], [e.n]⟩ with _ | b
  · rfl
  try dsimp only
  rcases QDD.ensureProbs s.vt.mem e m with _ | m
  · rfl
  have h3 := bfsSum_eq sqrt s.vt.mem m b.pm b.q (0, 0)
  try dsimp only at h3 ⊢
  rw [h3]
  rcases QDD.bfsSum s.vt.mem m b.pm b.q (0, 0) with _ | ⟨x, y⟩ <;> rfl

theorem measureOne_eq (s : St (Cx K tol)) (e : Edge (Cx K tol)) (index : Nat) (eps : K) (m : Memo K) :
    (letI := fieldOps tol sqrt; measureOne s e index eps m) = QDD.measureOne s e index eps m := by
  try dsimp only
  unfold measureOne QDD.measureOne
  have h1 := detProbs_eq sqrt s e index m
  try dsimp only at h1 ⊢
  rw [h1]
  rcases QDD.detProbs s e index m with _ | ⟨x, y, m⟩
  · rfl
  simp only [fo_add, fo_sub, fo_mul, fo_div, fo_lt, fo_far, fo_eq0, fo_sqrt, fo_zero, fo_one, fo_half, fo_mag2, fo_ofReal, decide_eq_true_eq]

theorem measureOneCollapsing_eq (env : Env (Cx K tol)) (mt : Bool) (e : Edge (Cx K tol)) (index : Nat) (eps draw : K)
    (m : Memo K) : (letI := fieldOps tol sqrt; measureOneCollapsing env mt e index eps draw m) =
      QDD.measureOneCollapsing env mt sqrt e index eps draw m := by
  try dsimp only
  unfold measureOneCollapsing QDD.measureOneCollapsing
  have h1 : ∀ s : St (Cx K tol), (letI := fieldOps tol sqrt; detProbs s e index m) = QDD.detProbs s e index m :=
    fun s => detProbs_eq sqrt s e index m
  try dsimp only at h1 ⊢
  simp only [h1, fo_add, fo_sub, fo_mul, fo_div, fo_lt, fo_far, fo_eq0, fo_sqrt, fo_zero, fo_one, fo_half, fo_mag2, fo_ofReal, decide_eq_true_eq]
  refine congrArg₂ _ (congrArg _ ?_) rfl
  funext s
  rcases QDD.detProbs s e index m with _ | r
  · rfl
  try dsimp only
  rcases evar s.vt.mem e.n with _ | r <;> rfl

end same
end Fl
end QDD
