import Verif.Core.Kron
import Verif.Core.Cx
import Mathlib.Algebra.Order.BigOperators.Group.Finset
/-!
# Probabilities and measurement (src/dd.cpp 1484-1527, 1611-1725, 1840-1900)

Weights are `Cx K tol` over an ordered field `K` (the `double` of the code); `mag2` is `Complex::mag2`.
-/

set_option linter.unusedSectionVars false
set_option linter.unusedVariables false
set_option linter.unusedSimpArgs false

namespace QDD
open ExactW Prog

section model
variable {K : Type} [Field K] [LinearOrder K] [IsStrictOrderedRing K] {tol : K}

/-- The global `probs` map (dd.cpp 57) from node pointers (`none`: terminal) to doubles. -/
abbrev Memo (K : Type) := Option Nat → Option K

/-- `assignProbabilities` (dd.cpp 1484-1499).  The order of the two recursive calls is unspecified in C++;
it does not influence the result.  The first argument bounds the recursion depth. -/
def assignProbs (mem : Nat → Option (VNode (Cx K tol))) :
    Nat → Edge (Cx K tol) → Memo K → Except Err (K × Memo K)
  | f, e, m =>
    match m e.n with
    | some x => .ok (e.w.mag2 * x, m)
    | none => match e.n with
      | none => .ok (e.w.mag2 * 1, upd m none (some 1))
      | some p => match f with
        | 0 => .error .overflow
        | f + 1 => match mem p with
          | none => .error .badNode
          | some nd => match assignProbs mem f nd.c0 m with
            | .error er => .error er
            | .ok (a, m) => match assignProbs mem f nd.c1 m with
              | .error er => .error er
              | .ok (b, m) => .ok (e.w.mag2 * (a + b), upd m (some p) (some (a + b)))

/-- `if (probs.find(rootEdge.n) == probs.end()) assignProbabilities(rootEdge)` (dd.cpp 1618-1620,
1706-1708). -/
def ensureProbs (mem : Nat → Option (VNode (Cx K tol))) (e : Edge (Cx K tol)) (m : Memo K) :
    Except Err (Memo K) :=
  match m e.n with
  | some _ => .ok m
  | none => match assignProbs mem (NQUBITS + 1) e m with
    | .error er => .error er
    | .ok (_, m) => .ok m

/-- The inner loop of `probabilities` (dd.cpp 1507-1523) for index `i`, `j` levels left.  `probs[..]` of a
missing key would insert a wrong 0 into the global map: that is an error here (shown not to happen). -/
def probWalk (mem : Nat → Option (VNode (Cx K tol))) (m : Memo K) (i : Nat) :
    Nat → Option Nat → K → Except Err K
  | 0, _, prob => .ok prob
  | j + 1, cur, prob => match cur with
    | none => .error .badNode
    | some p => match mem p with
      | none => .error .badNode
      | some nd => match m nd.c0.n, m nd.c1.n with
      | some x0, some x1 =>
        let p0 := x0 * nd.c0.w.mag2
        let p1 := x1 * nd.c1.w.mag2
        let tmp := p0 + p1
        let p0 := if 0 < tmp then p0 / tmp else p0
        let prob := if i.testBit j then prob * (1 - p0) else prob * p0
        if prob = 0 then probWalk mem m i j cur prob
        else probWalk mem m i j (nd.child (i.testBit j)).n prob
      | _, _ => .error .badNode

/-- The outer loop of `probabilities` (dd.cpp 1505-1525): indices `i, i+1, …`, `n` of them. -/
def probLoop (mem : Nat → Option (VNode (Cx K tol))) (m : Memo K) (lv : Nat) (root : Option Nat) :
    Nat → Nat → Except Err (List K)
  | 0, _ => .ok []
  | n + 1, i => match probWalk mem m i lv root 1 with
    | .error er => .error er
    | .ok x => match probLoop mem m lv root n (i + 1) with
      | .error er => .error er
      | .ok l => .ok (x :: l)

/-- `probabilities` (dd.cpp 1501-1527).  The loop counter is an `int`: from 31 qubits on it overflows. -/
def probabilities (s : St (Cx K tol)) (e : Edge (Cx K tol)) (m : Memo K) : Except Err (List K × Memo K) :=
  match evar s.vt.mem e.n with
  | .error er => .error er
  | .ok v => match assignProbs s.vt.mem (NQUBITS + 1) e m with
    | .error er => .error er
    | .ok (_, m) =>
      if v + 1 < 0 ∨ 31 ≤ v + 1 then .error .overflow else
      match probLoop s.vt.mem m (v + 1).toNat e.n (2 ^ (v + 1).toNat) 0 with
      | .error er => .error er
      | .ok l => .ok (l, m)

/-- The sampling loop of `measureAll` (dd.cpp 1622-1643), `i` levels left; `draw t` is the `t`-th value
of `dist(mt)`, `res` the characters (index: qubit; `true` is '1'). -/
def sampleLoop (mem : Nat → Option (VNode (Cx K tol))) (m : Memo K) (draw : Nat → K) :
    Nat → Nat → Option Nat → List Bool → Except Err (List Bool)
  | 0, _, _, res => .ok res
  | i + 1, t, cur, res => match cur with
    | none => .error .badNode
    | some p => match mem p with
      | none => .error .badNode
      | some nd => match m nd.c0.n, m nd.c1.n with
      | some x0, some x1 =>
        let p0 := x0 * nd.c0.w.mag2
        let p1 := x1 * nd.c1.w.mag2
        let tmp := p0 + p1
        let p0 := if tmp ≠ 0 then p0 / tmp else 1 / 2
        if draw t < p0 then sampleLoop mem m draw i (t + 1) nd.c0.n res
        else if nd.v < 0 ∨ (res.length : Int) ≤ nd.v then .error .oob
        else sampleLoop mem m draw i (t + 1) nd.c1.n (res.set nd.v.toNat true)
      | _, _ => .error .badNode

/-- The sampling part of `measureAll` (dd.cpp 1611-1643): characters by qubit. -/
def sampleAll (s : St (Cx K tol)) (e : Edge (Cx K tol)) (m : Memo K) (draw : Nat → K) :
    Except Err (List Bool × Memo K) :=
  match evar s.vt.mem e.n with
  | .error er => .error er
  | .ok v =>
    match ensureProbs s.vt.mem e m with
    | .error er => .error er
    | .ok m => match sampleLoop s.vt.mem m draw (v + 1).toNat 0 e.n
          (List.replicate (v + 1).toNat false) with
      | .error er => .error er
      | .ok res => .ok (res, m)

/-- The rebuild loop of `measureAll` with `collapse` (dd.cpp 1645-1657): characters from qubit `p` on. -/
def collapseLoop (env : Env (Cx K tol)) : List Bool → Nat → Edge (Cx K tol) → P (Cx K tol) (Edge (Cx K tol))
  | [], _, e => pure e
  | b :: bs, p, e => do
    let e ← mkV env p (if b then zeroE else e) (if b then e else zeroE)
    collapseLoop env bs (p + 1) e

/-- Reading the state in the middle of a program. -/
def peek {W α : Type} (f : St W → Except Err α) : P W α :=
  Prog.atom fun _ s => match f s with
    | .error er => .error er
    | .ok x => .ok (x, s)

/-- `measureAll` (dd.cpp 1611-1659): the string (highest qubit first), the new value of `rootEdge`, the
`probs` map. -/
def measureAll (env : Env (Cx K tol)) (e : Edge (Cx K tol)) (collapse : Bool) (m : Memo K) (draw : Nat → K) :
    P (Cx K tol) (List Bool × Edge (Cx K tol) × Memo K) := do
  let (res, m) ← peek fun s => sampleAll s e m draw
  let e' ← if collapse then collapseLoop env res 0 oneE else pure e
  pure (res.reverse, e', m)

/-- The running data of `determineMeasurementProbabilities` (dd.cpp 1663-1669). -/
structure Bfs (K : Type) where
  pm : Option Nat → K
  visited : List (Option Nat)
  q : List (Option Nat)

/-- Handling one child (dd.cpp 1676-1687, 1689-1700). -/
def bfsChild (c : Edge (Cx K tol)) (prob : K) (b : Bfs K) : Bfs K :=
  if WOps.az c.w then b else
  let tmp1 := prob * c.w.mag2
  if c.n ∈ b.visited then { b with pm := upd b.pm c.n (b.pm c.n + tmp1) }
  else ⟨upd b.pm c.n tmp1, c.n :: b.visited, b.q ++ [c.n]⟩

/-- The loop `while (q.front()->v != index)` (dd.cpp 1671-1701).  `front()` of an empty queue and a missing
node are errors.  The first argument bounds the number of iterations (shown to suffice). -/
def bfsLoop (mem : Nat → Option (VNode (Cx K tol))) (index : Int) : Nat → Bfs K → Except Err (Bfs K)
  | f, b => match b.q with
    | [] => .error .badNode
    | none :: _ => .error .badNode
    | some p :: qs => match mem p with
      | none => .error .badNode
      | some nd =>
        if nd.v = index then .ok b else
        match f with
        | 0 => .error .overflow
        | f + 1 =>
          let prob := b.pm (some p)
          bfsLoop mem index f (bfsChild nd.c1 prob (bfsChild nd.c0 prob { b with q := qs }))

/-- The final loop (dd.cpp 1710-1723). -/
def bfsSum (mem : Nat → Option (VNode (Cx K tol))) (m : Memo K) (pm : Option Nat → K) :
    List (Option Nat) → K × K → Except Err (K × K)
  | [], acc => .ok acc
  | n :: qs, acc => match n with
    | none => .error .badNode
    | some p => match mem p with
      | none => .error .badNode
      | some nd => match m nd.c0.n, m nd.c1.n with
      | some x0, some x1 =>
        let a := if WOps.az nd.c0.w then acc.1 else acc.1 + pm n * x0 * nd.c0.w.mag2
        let b := if WOps.az nd.c1.w then acc.2 else acc.2 + pm n * x1 * nd.c1.w.mag2
        bfsSum mem m pm qs (a, b)
      | _, _ => .error .badNode

/-- `determineMeasurementProbabilities` (dd.cpp 1661-1725). -/
def detProbs (s : St (Cx K tol)) (e : Edge (Cx K tol)) (index : Nat) (m : Memo K) :
    Except Err (K × K × Memo K) :=
  match bfsLoop s.vt.mem index (2 ^ (NQUBITS + 1))
      ⟨upd (fun _ => 0) e.n e.w.mag2, [e.n], [e.n]⟩ with
  | .error er => .error er
  | .ok b =>
    match ensureProbs s.vt.mem e m with
    | .error er => .error er
    | .ok m => match bfsSum s.vt.mem m b.pm b.q (0, 0) with
      | .error er => .error er
      | .ok (x, y) => .ok (x, y, m)

/-- `measureOne` (dd.cpp 1885-1900): `none` is a thrown `std::runtime_error` (the `probs` map has been updated
by then). -/
def measureOne (s : St (Cx K tol)) (e : Edge (Cx K tol)) (index : Nat) (eps : K) (m : Memo K) :
    Except Err (Option K × Memo K) :=
  match detProbs s e index m with
  | .error er => .error er
  | .ok (pz, po, m) => if eps < |pz + po - 1| then .ok (none, m) else .ok (some (pz / (pz + po)), m)

/-- `measureOneCollapsing` (dd.cpp 1840-1883).  `sqrt` is `std::sqrt`, `draw` the value of `dist(mt)`;
the result is the outcome with the new `rootEdge` (`none`: a thrown `std::runtime_error`) and the `probs` map. -/
def measureOneCollapsing (env : Env (Cx K tol)) (mt : Bool) (sqrt : K → K) (e : Edge (Cx K tol)) (index : Nat)
    (eps draw : K) (m : Memo K) : P (Cx K tol) (Option (Bool × Edge (Cx K tol)) × Memo K) := do
  let ((pz, po, m), v) ← peek fun s => match detProbs s e index m with
    | .error er => .error er
    | .ok r => match evar s.vt.mem e.n with
      | .error er => .error er
      | .ok v => .ok (r, v)
  let sum := pz + po
  if eps < |sum - 1| then pure (none, m) else do
    let one := !(decide (draw < pz / sum))
    let mm : Nat → Nat → Cx K tol := fun r c => if r = c ∧ r = nb one then WOps.one else WOps.zero
    let nf := if one then po else pz
    let gate ← makeGate env (v + 1).toNat mm index []
    let x ← mvMul env mt gate e
    pure (some (one, ⟨WOps.mul x.w ⟨sqrt (1 / nf), 0⟩, x.n⟩), m)

end model


section proofs
variable {K : Type} [Field K] [LinearOrder K] [IsStrictOrderedRing K]

/-- Exact weights over `K`. -/
abbrev CW (K : Type) [Field K] [LinearOrder K] [IsStrictOrderedRing K] := Cx K (0 : K)

variable {env : Env (CW K)}

/-- Weighted sum of the squared magnitudes of a node's amplitudes. -/
def wsum (mem : Nat → Option (VNode (CW K))) (k : Nat) (n : Option Nat) (φ : Nat → K) : K :=
  bsum k (fun i => φ i * (vptr mem k n i).mag2)

/-- Squared norm of a node. -/
def nrm (mem : Nat → Option (VNode (CW K))) (k : Nat) (n : Option Nat) : K := wsum mem k n (fun _ => 1)

theorem wsum_congr {mem : Nat → Option (VNode (CW K))} {k n} {φ ψ : Nat → K} (h : ∀ i < 2 ^ k, φ i = ψ i) :
    wsum mem k n φ = wsum mem k n ψ := bsum_congr fun i hi => by rw [h i hi]

theorem wsum_succ {mem : Nat → Option (VNode (CW K))} {k p nd} (hm : mem p = some nd) (φ : Nat → K) :
    wsum mem (k + 1) (some p) φ =
      nd.c0.w.mag2 * wsum mem k nd.c0.n φ + nd.c1.w.mag2 * wsum mem k nd.c1.n (fun i => φ (2 ^ k + i)) := by
  unfold wsum
  rw [bsum, ← bsum_mul, ← bsum_mul]
  congr 1
  · refine bsum_congr fun i hi => ?_
    simp only [vptr, hm, testBit_lt hi, VNode.child, Bool.false_eq_true, if_false, Cx.mag2_mul]
    ring
  · refine bsum_congr fun i hi => ?_
    simp only [vptr, hm, testBit_add hi, VNode.child, if_true, Cx.mag2_mul]
    rw [vptr_congr mem k nd.c1.n (lowEq_add k i)]
    ring

theorem nrm_succ {mem : Nat → Option (VNode (CW K))} {k p nd} (hm : mem p = some nd) :
    nrm mem (k + 1) (some p) = nd.c0.w.mag2 * nrm mem k nd.c0.n + nd.c1.w.mag2 * nrm mem k nd.c1.n :=
  wsum_succ hm _

theorem nrm_zero (mem : Nat → Option (VNode (CW K))) (n : Option Nat) : nrm mem 0 n = 1 := by
  simp [nrm, wsum, bsum, vptr, Cx.mag2_one]

theorem bsum_nonneg {k : Nat} {f : Nat → K} (h : ∀ i < 2 ^ k, 0 ≤ f i) : 0 ≤ bsum k f := by
  rw [bsum_eq]; exact Finset.sum_nonneg fun i hi => h i (Finset.mem_range.1 hi)

theorem wsum_nonneg {mem : Nat → Option (VNode (CW K))} {k n} {φ : Nat → K} (h : ∀ i, 0 ≤ φ i) :
    0 ≤ wsum mem k n φ := bsum_nonneg fun i _ => mul_nonneg (h i) (Cx.mag2_nonneg _)

theorem nrm_nonneg (mem : Nat → Option (VNode (CW K))) (k n) : 0 ≤ nrm mem k n :=
  wsum_nonneg fun _ => zero_le_one

theorem bsum_pos {k : Nat} {f : Nat → K} (h : ∀ i < 2 ^ k, 0 ≤ f i) {j} (hj : j < 2 ^ k) (hp : 0 < f j) :
    0 < bsum k f := by
  rw [bsum_eq]
  exact Finset.sum_pos' (fun i hi => h i (Finset.mem_range.1 hi)) ⟨j, Finset.mem_range.2 hj, hp⟩

theorem mag2_pos {a : CW K} (h : a ≠ 0) : 0 < a.mag2 :=
  lt_of_le_of_ne (Cx.mag2_nonneg a) fun e => h (Cx.mag2_eq_zero.1 e.symm)

/-- Live nodes have a positive norm. -/
theorem nrm_pos {s : St (CW K)} (hi : Inv env s) {k n} (h : VPtrOk env s k n) : 0 < nrm s.vt.mem k n := by
  obtain ⟨i, hi1, hi2⟩ := vptr_nonzero hi h
  refine bsum_pos (fun i _ => mul_nonneg zero_le_one (Cx.mag2_nonneg _)) hi1 ?_
  rw [one_mul]; exact mag2_pos hi2

/-- Every entry of the `probs` map is the squared norm of its node, and the map is closed under children. -/
structure PInv (env : Env (CW K)) (s : St (CW K)) (m : Memo K) : Prop where
  term : ∀ x, m none = some x → x = 1
  node : ∀ p x, m (some p) = some x → ∃ nd, UTable.Reg env.hv s.vt p nd ∧
    x = nrm s.vt.mem (nd.v + 1).toNat (some p) ∧ ∀ b, m (nd.child b).n ≠ none

theorem PInv.empty (s : St (CW K)) : PInv env s (fun _ => none) := ⟨(fun _ h => nomatch h), (fun _ _ h => nomatch h)⟩

theorem nrm_ext {s s' : St (CW K)} (hi : Inv env s) (he : SExt env s s') {k n} (h : VPtrOk env s k n) :
    nrm s'.vt.mem k n = nrm s.vt.mem k n := bsum_congr fun i _ => by rw [vptr_ext hi he h]

theorem Inv.vptrOk {s : St (CW K)} (hi : Inv env s) {p nd} (hr : UTable.Reg env.hv s.vt p nd) :
    VPtrOk env s (nd.v + 1).toNat (some p) := by
  obtain ⟨l, hl, _⟩ := hi.vlevel hr
  exact .inr ⟨p, nd, rfl, hr, by omega⟩

theorem PInv.ext {s s' : St (CW K)} (hi : Inv env s) (he : SExt env s s') {m} (h : PInv env s m) :
    PInv env s' m := by
  refine ⟨h.term, fun p x hx => ?_⟩
  obtain ⟨nd, h1, h2, h3⟩ := h.node p x hx
  exact ⟨nd, he.1 _ _ h1, by rw [nrm_ext hi he (hi.vptrOk h1)]; exact h2, h3⟩

/-- The memo value of a live edge's target, times the squared weight. -/
theorem PInv.edge {s : St (CW K)} {m : Memo K} (h : PInv env s m) {k : Nat} {e : Edge (CW K)}
    (he : VOk env s k e) {x : K} (hx : m e.n = some x) : x * e.w.mag2 = e.w.mag2 * nrm s.vt.mem k e.n := by
  rcases he with (⟨rfl, hn⟩ | ⟨p, nd, hn, h1, h2⟩) | ⟨hw, hn⟩
  · rw [hn] at hx ⊢; rw [h.term x hx, nrm_zero]; ring
  · rw [hn] at hx ⊢
    obtain ⟨nd', h3, h4, _⟩ := h.node p x hx
    have := Reg.inj h1 h3
    subst this
    have : (nd.v + 1).toNat = k := by omega
    rw [this] at h4
    rw [h4]; ring
  · rw [hw]; simp [Cx.mag2]

theorem assignProbs_spec {s : St (CW K)} (hi : Inv env s) : ∀ (f k : Nat) (e : Edge (CW K)) (m : Memo K),
    VOk env s k e → k ≤ f → PInv env s m →
    ∃ m', assignProbs s.vt.mem f e m = .ok (e.w.mag2 * nrm s.vt.mem k e.n, m') ∧ PInv env s m' ∧
      (∀ n x, m n = some x → m' n = some x) ∧ m' e.n ≠ none := by
  intro f
  induction f with
  | zero =>
    intro k e m he hk hm
    unfold assignProbs
    cases hx : m e.n with
    | some x =>
      have := hm.edge he hx
      exact ⟨m, by dsimp only; rw [mul_comm, this], hm, fun _ _ h => h, by simp [hx]⟩
    | none =>
      have hn : e.n = none := by
        rcases he with (⟨_, h⟩ | ⟨p, nd, h1, h2, h3⟩) | ⟨_, h⟩
        · exact h
        · obtain ⟨l, hl, _⟩ := hi.vlevel h2; omega
        · exact h
      have hk0 : k = 0 := by omega
      subst hk0
      refine ⟨upd m none (some 1), by simp [hn, nrm_zero], ?_, ?_, by simp [hn]⟩
      · refine ⟨fun x h => by simpa using h.symm, fun p x h => ?_⟩
        rw [upd_ne _ _ _ (by simp)] at h
        obtain ⟨nd, a1, a2, a3⟩ := hm.node p x h
        refine ⟨nd, a1, a2, fun b => ?_⟩
        by_cases e : (nd.child b).n = none
        · simp [e]
        · rw [upd_ne _ _ _ e]; exact a3 b
      · intro n x h
        by_cases e' : n = none
        · subst e'; rw [hn] at hx; rw [hx] at h; cases h
        · rw [upd_ne _ _ _ e']; exact h
  | succ f ih =>
    intro k e m he hk hm
    unfold assignProbs
    cases hx : m e.n with
    | some x =>
      have := hm.edge he hx
      exact ⟨m, by dsimp only; rw [mul_comm, this], hm, fun _ _ h => h, by simp [hx]⟩
    | none =>
      cases hn : e.n with
      | none =>
        have hres : e.w.mag2 * 1 = e.w.mag2 * nrm s.vt.mem k none := by
          rcases he with (⟨rfl, h⟩ | ⟨p, nd, h1, h2, h3⟩) | ⟨hw, h⟩
          · rw [nrm_zero]
          · rw [hn] at h1; cases h1
          · rw [hw]; simp [Cx.mag2]
        refine ⟨upd m none (some 1), by dsimp only; rw [hres], ?_, ?_, by simp⟩
        · refine ⟨fun x h => by simpa using h.symm, fun p x h => ?_⟩
          rw [upd_ne _ _ _ (by simp)] at h
          obtain ⟨nd, a1, a2, a3⟩ := hm.node p x h
          refine ⟨nd, a1, a2, fun b => ?_⟩
          by_cases e : (nd.child b).n = none
          · simp [e]
          · rw [upd_ne _ _ _ e]; exact a3 b
        · intro n x h
          by_cases e' : n = none
          · subst e'; rw [hn] at hx; rw [hx] at h; cases h
          · rw [upd_ne _ _ _ e']; exact h
      | some p =>
        rcases he with (⟨_, h⟩ | ⟨p', nd, h1, h2, h3⟩) | ⟨_, h⟩
        · rw [hn] at h; cases h
        · rw [hn] at h1; cases h1
          obtain ⟨l, hl, _⟩ := hi.vlevel h2
          have hkl : k = l + 1 := by omega
          subst hkl
          obtain ⟨m1, a1, a2, a3, a4⟩ := ih l nd.c0 m ((hi.vn p nd h2).ok false hl) (by omega) hm
          obtain ⟨m2, b1, b2, b3, b4⟩ := ih l nd.c1 m1 ((hi.vn p nd h2).ok true hl) (by omega) a2
          dsimp only
          rw [h2.1]
          dsimp only
          rw [a1]
          dsimp only
          rw [b1]
          dsimp only
          refine ⟨_, by rw [nrm_succ h2.1], ?_, ?_, by simp⟩
          · refine ⟨fun x h => ?_, fun q x h => ?_⟩
            · rw [upd_ne _ _ _ (by simp)] at h; exact b2.term x h
            · by_cases e' : q = p
              · subst e'
                simp at h
                refine ⟨nd, h2, ?_, ?_⟩
                · have : (nd.v + 1).toNat = l + 1 := by omega
                  rw [this, nrm_succ h2.1]; exact h.symm
                · intro b
                  by_cases e'' : (nd.child b).n = some q
                  · simp [e'']
                  · rw [upd_ne _ _ _ e'']
                    cases b
                    · cases hc : m1 nd.c0.n with
                      | none => exact absurd hc a4
                      | some y => simp [VNode.child, b3 _ _ hc]
                    · exact b4
              · rw [upd_ne _ _ _ (by simpa using e')] at h
                obtain ⟨nd', c1, c2, c3⟩ := b2.node q x h
                refine ⟨nd', c1, c2, fun b => ?_⟩
                by_cases e'' : (nd'.child b).n = some p
                · simp [e'']
                · rw [upd_ne _ _ _ e'']; exact c3 b
          · intro n x h
            have h' := b3 _ _ (a3 _ _ h)
            have : n ≠ some p := by rintro rfl; rw [hn] at hx; rw [hx] at h; cases h
            rw [upd_ne _ _ _ this]; exact h'
        · rw [hn] at h; cases h

/-- The memo at a live node and its children. -/
theorem PInv.kids {s : St (CW K)} (hi : Inv env s) {m : Memo K} (h : PInv env s m) {k : Nat} {p nd}
    (hr : UTable.Reg env.hv s.vt p nd) (hv : nd.v = (k : Int)) (hmem : m (some p) ≠ none) :
    ∃ x0 x1, m nd.c0.n = some x0 ∧ m nd.c1.n = some x1 ∧
      x0 * nd.c0.w.mag2 = nd.c0.w.mag2 * nrm s.vt.mem k nd.c0.n ∧
      x1 * nd.c1.w.mag2 = nd.c1.w.mag2 * nrm s.vt.mem k nd.c1.n := by
  cases hx : m (some p) with
  | none => exact absurd hx hmem
  | some x =>
    obtain ⟨nd', h1, _, h3⟩ := h.node p x hx
    have := Reg.inj hr h1
    subst this
    cases h0 : m nd.c0.n with
    | none => exact absurd h0 (h3 false)
    | some x0 =>
      cases h1' : m nd.c1.n with
      | none => exact absurd h1' (h3 true)
      | some x1 =>
        exact ⟨x0, x1, rfl, rfl, h.edge ((hi.vn p nd hr).ok false hv) h0,
          h.edge ((hi.vn p nd hr).ok true hv) h1'⟩

theorem PInv.child {s : St (CW K)} {m : Memo K} (h : PInv env s m) {p nd}
    (hr : UTable.Reg env.hv s.vt p nd) (hmem : m (some p) ≠ none) (b : Bool) : m (nd.child b).n ≠ none := by
  cases hx : m (some p) with
  | none => exact absurd hx hmem
  | some x =>
    obtain ⟨nd', h1, _, h3⟩ := h.node p x hx
    have := Reg.inj hr h1
    subst this
    exact h3 b

/-- Once the running product is 0 the walk stays where it is and returns 0. -/
theorem probWalk_zero {s : St (CW K)} (hi : Inv env s) {m : Memo K} (hm : PInv env s m) {p nd}
    (hr : UTable.Reg env.hv s.vt p nd) (hmem : m (some p) ≠ none) (i : Nat) :
    ∀ j, probWalk s.vt.mem m i j (some p) 0 = .ok 0 := by
  obtain ⟨l, hl, _⟩ := hi.vlevel hr
  obtain ⟨x0, x1, h1, h2, _, _⟩ := hm.kids hi hr hl hmem
  intro j
  induction j with
  | zero => rfl
  | succ j ih =>
    simp only [probWalk, hr.1, h1, h2, zero_mul, ite_self, if_true]
    exact ih

theorem probWalk_spec {s : St (CW K)} (hi : Inv env s) {m : Memo K} (hm : PInv env s m) (i : Nat) :
    ∀ (j : Nat) (n : Option Nat) (prob : K), VPtrOk env s j n → m n ≠ none → prob ≠ 0 →
      probWalk s.vt.mem m i j n prob = .ok (prob * ((vptr s.vt.mem j n i).mag2 / nrm s.vt.mem j n)) := by
  intro j
  induction j with
  | zero =>
    intro n prob _ _ _
    simp [probWalk, vptr, nrm_zero, Cx.mag2_one]
  | succ j ih =>
    intro n prob hn hmem hp
    rcases hn with ⟨h, _⟩ | ⟨p, nd, rfl, hr, hv⟩
    · cases h
    · have hv' : nd.v = (j : Int) := by push_cast at hv; omega
      obtain ⟨x0, x1, h1, h2, h3, h4⟩ := hm.kids hi hr hv' hmem
      have hN : nrm s.vt.mem (j + 1) (some p) = x0 * nd.c0.w.mag2 + x1 * nd.c1.w.mag2 := by
        rw [nrm_succ hr.1, h3, h4]
      have hpos : 0 < x0 * nd.c0.w.mag2 + x1 * nd.c1.w.mag2 := by
        rw [← hN]; exact nrm_pos hi (.inr ⟨p, nd, rfl, hr, hv⟩)
      have hbit : (if i.testBit j then prob * (1 - x0 * nd.c0.w.mag2 / (x0 * nd.c0.w.mag2 + x1 * nd.c1.w.mag2))
          else prob * (x0 * nd.c0.w.mag2 / (x0 * nd.c0.w.mag2 + x1 * nd.c1.w.mag2))) =
          prob * ((nd.child (i.testBit j)).w.mag2 * nrm s.vt.mem j (nd.child (i.testBit j)).n /
            nrm s.vt.mem (j + 1) (some p)) := by
        rw [hN]
        have hne := hpos.ne'
        cases i.testBit j
        · simp only [VNode.child, Bool.false_eq_true, if_false]; rw [← h3]
        · simp only [VNode.child, if_true]; rw [← h4]; congr 1
          rw [eq_div_iff hne, sub_mul, div_mul_cancel₀ _ hne]; ring
      simp only [probWalk, hr.1, h1, h2, if_pos hpos]
      rw [hbit]
      have hNne : nrm s.vt.mem (j + 1) (some p) ≠ 0 := by rw [hN]; exact hpos.ne'
      have hval : (vptr s.vt.mem (j + 1) (some p) i).mag2 =
          (nd.child (i.testBit j)).w.mag2 * (vptr s.vt.mem j (nd.child (i.testBit j)).n i).mag2 := by
        simp only [vptr, hr.1, Cx.mag2_mul]
      split
      · next hz =>
        rw [hz, probWalk_zero hi hm hr hmem]
        congr 1
        rw [hval]
        rcases mul_eq_zero.1 hz with h | h
        · exact absurd h hp
        · rcases div_eq_zero_iff.1 h with h | h
          · rcases mul_eq_zero.1 h with h | h
            · rw [h]; simp
            · -- the child's norm is zero only for a zero edge
              rcases (hi.vn p nd hr).ok (i.testBit j) hv' with hc | ⟨hw, _⟩
              · exact absurd h (nrm_pos hi hc).ne'
              · rw [hw]; simp [Cx.mag2]
          · exact absurd h hNne
      · next hz =>
        have hcw : (nd.child (i.testBit j)).w ≠ 0 := by
          intro h0; apply hz; rw [h0]; simp [Cx.mag2]
        have hc : VPtrOk env s j (nd.child (i.testBit j)).n := by
          rcases (hi.vn p nd hr).ok (i.testBit j) hv' with hc | ⟨hw, _⟩
          · exact hc
          · exact absurd hw hcw
        rw [ih _ _ hc (hm.child hr hmem _) hz]
        congr 1
        rw [hval]
        have := (nrm_pos hi hc).ne'
        field_simp

theorem probLoop_spec {s : St (CW K)} {m : Memo K} {lv : Nat} {root : Option Nat} {g : Nat → K}
    (h : ∀ i, probWalk s.vt.mem m i lv root 1 = .ok (g i)) : ∀ n i,
    probLoop s.vt.mem m lv root n i = .ok ((List.range n).map fun x => g (i + x)) := by
  intro n
  induction n with
  | zero => intro i; rfl
  | succ n ih =>
    intro i
    simp only [probLoop, h, ih, List.range_succ_eq_map, List.map_cons, List.map_map, Nat.add_zero]
    congr 2
    exact List.map_congr_left fun x _ => by simp only [Function.comp]; congr 1; omega

/-- Amplitudes squared over the norm: what `probabilities` should return at index `i`. -/
def born (mem : Nat → Option (VNode (CW K))) (k : Nat) (e : Edge (CW K)) (i : Nat) : K :=
  (vden mem k e i).mag2 / bsum k (fun j => (vden mem k e j).mag2)

theorem norm2_eq (mem : Nat → Option (VNode (CW K))) (k : Nat) (e : Edge (CW K)) :
    bsum k (fun j => (vden mem k e j).mag2) = e.w.mag2 * nrm mem k e.n := by
  unfold nrm wsum
  rw [← bsum_mul]
  exact bsum_congr fun j _ => by simp only [vden, Cx.mag2_mul, one_mul]

theorem born_eq {mem : Nat → Option (VNode (CW K))} {k : Nat} {e : Edge (CW K)} (hw : e.w ≠ 0) (i : Nat) :
    born mem k e i = (vptr mem k e.n i).mag2 / nrm mem k e.n := by
  unfold born
  rw [norm2_eq]
  simp only [vden, Cx.mag2_mul]
  exact mul_div_mul_left _ _ (mag2_pos hw).ne'

theorem evar_spec {s : St (CW K)} {k n} (h : VPtrOk env s k n) : evar s.vt.mem n = .ok ((k : Int) - 1) := by
  rcases h with ⟨rfl, rfl⟩ | ⟨p, nd, rfl, hr, hv⟩
  · rfl
  · simp only [evar, hr.1, VNode.tvar]; congr 1; omega

theorem VPtrOk.le {s : St (CW K)} (hi : Inv env s) {k n} (h : VPtrOk env s k n) : k ≤ NQUBITS := by
  rcases h with ⟨rfl, rfl⟩ | ⟨p, nd, rfl, hr, hv⟩
  · omega
  · obtain ⟨l, hl, hl2⟩ := hi.vlevel hr; omega

/-- `probabilities` of a nonzero state of at most 30 qubits, after any earlier calls. -/
theorem probabilities_spec {s : St (CW K)} (hi : Inv env s) {m : Memo K} (hm : PInv env s m) {k : Nat}
    {e : Edge (CW K)} (he : VPtrOk env s k e.n) (hw : e.w ≠ 0) (hk : k ≤ 30) :
    ∃ m', probabilities s e m = .ok ((List.range (2 ^ k)).map (born s.vt.mem k e), m') ∧ PInv env s m' := by
  obtain ⟨m', h1, h2, h3, h4⟩ := assignProbs_spec hi (NQUBITS + 1) k e m (.inl he)
    (Nat.le_succ_of_le (he.le hi)) hm
  refine ⟨m', ?_, h2⟩
  have hl := probLoop_spec (s := s) (m := m') (lv := k) (root := e.n) (g := born s.vt.mem k e) (by
    intro i
    rw [probWalk_spec hi h2 i k e.n 1 he h4 one_ne_zero, one_mul, born_eq hw]) (2 ^ k) 0
  have hk1 : ((k : Int) - 1 + 1).toNat = k := by omega
  have hb : ¬ ((k : Int) - 1 + 1 < 0 ∨ 31 ≤ (k : Int) - 1 + 1) := by omega
  simp only [probabilities, evar_spec he, h1, hb, if_false, hk1, hl]
  simp

end proofs

end QDD
