import Verif.Py.Swap
import Verif.Props.Backend
/-!
# C39: automatic qubit swapping

The distributed products and measurements are taken to do what their serial counterparts do (see C31-C34 for when that
is so); these theorems are about the bookkeeping of qdd_backend.py 502-655 and its use in `_evaluate_circuit`.
-/

set_option linter.unusedSectionVars false
set_option linter.unusedVariables false
set_option linter.unusedSimpArgs false

namespace QDD.Props
open Spec Api Gate Finset Py Py.Client

/-- The physical state `g` holds the logical state `f`: amplitude `f i` is found at every index `j` that has, for every
qubit `q`, bit `q` of `i` at position `d q`; the positions are a permutation. -/
def Holds39 (n : Nat) (d : Nat → Nat) (f g : Nat → CR) : Prop :=
  (∀ q < n, d q < n) ∧ (∀ q < n, ∀ r < n, d q = d r → q = r) ∧
  ∀ i < 2 ^ n, ∀ j < 2 ^ n, (∀ q < n, j.testBit (d q) = i.testBit q) → g j = f i

theorem holds39 {n : Nat} {d : Nat → Nat} {f g : Nat → CR} : Holds39 n d f g ↔ Py.Inv n f (g, d) :=
  ⟨fun h => ⟨⟨h.1, h.2.1⟩, h.2.2⟩, fun h => ⟨h.perm.lt, h.perm.inj, h.rel⟩⟩

/-- Every permutation of the qubits can be reached: there is exactly one logical state for a physical one. -/
theorem holds39_exists {n : Nat} {d : Nat → Nat} (h1 : ∀ q < n, d q < n) (h2 : ∀ q < n, ∀ r < n, d q = d r → q = r) (g : Nat → CR) :
    ∃ f, Holds39 n d f g := by
  refine ⟨fun i => g (place n d i), h1, h2, fun i hi j hj hm => ?_⟩
  have hp : PermOn n d := ⟨h1, h2⟩
  rw [Match.unique hp hj (place_lt n d i) hm (place_match hp i) fun _ _ => rfl]

/-- **C39.** `restore_swap` raises nothing, ends with every qubit at its own position, and puts every amplitude where it
belongs. -/
theorem C39_restore {n : Nat} {d : Nat → Nat} {f g : Nat → CR} (h : Holds39 n d f g) :
    ∃ g' d', restoreSwap n (g, d) = some (g', d') ∧ (∀ q < n, d' q = q) ∧ ∀ i < 2 ^ n, g' i = f i := by
  obtain ⟨⟨g', d'⟩, h1, h2, h3⟩ := restoreSwap_ok (holds39.1 h)
  exact ⟨g', d', h1, h3, fun i hi => h2.rel.ident h3 hi⟩

/-- **C39.** `do_swap_v1` raises nothing and leaves the logical state as it was, wherever it moves the qubits. -/
theorem C39_swap_v1 {n : Nat} {d : Nat → Nat} {f g : Nat → CR} (h : Holds39 n d f g) {data : List Inst}
    (hq : ∀ x ∈ data, ∀ q ∈ x.qargs, q < n) (count : Nat) {loc : Finset Nat} (hl : loc ⊆ range n) :
    ∃ g' d' loc', swapV1 n data count loc (g, d) = some ((g', d'), loc') ∧ loc' ⊆ range n ∧ Holds39 n d' f g' := by
  obtain ⟨⟨g', d'⟩, l, h1, h2, h3⟩ := swapV1_ok hq count hl (holds39.1 h)
  exact ⟨g', d', l, h1, h3, holds39.2 h2⟩

/-- **C39.** The same for `do_swap_v2`, whichever elements `set.pop` takes. -/
theorem C39_swap_v2 {n : Nat} (h0 : 0 < n) {d : Nat → Nat} {f g : Nat → CR} (h : Holds39 n d f g) {data : List Inst}
    (hq : ∀ x ∈ data, ∀ q ∈ x.qargs, q < n) (count : Nat) {pop : Finset Nat → Nat}
    (hpop : ∀ s : Finset Nat, s.Nonempty → pop s ∈ s) {loc : Finset Nat} (hl : loc ⊆ range n) :
    ∃ g' d' loc', swapV2 n data count pop loc (g, d) = some ((g', d'), loc') ∧ loc' ⊆ range n ∧ Holds39 n d' f g' := by
  obtain ⟨⟨g', d'⟩, l, h1, h2, h3⟩ := swapV2_ok h0 hq count hpop hl (holds39.1 h)
  exact ⟨g', d', l, h1, h3, holds39.2 h2⟩

/-- **C39.** The gate the backend builds at the mapped qubits acts on the physical state as the gate of the circuit acts
on the logical one. -/
theorem C39_gate {n nc : Nat} {ms} {d : Nat → Nat} {f g : Nat → CR} (h : Holds39 n d f g) {x : Inst} (hx : Fine n nc ms x)
    {gn : GName} {ctl : List Bool} (hop : x.op = .gate gn ctl) :
    ∃ A B, x.oper n = some A ∧ built n gn (x.qargs.map d) = some B ∧ Holds39 n d (app n A f) (app n B g) := by
  have hfi := hx.op
  rw [hop] at hfi
  obtain ⟨A, hA, _⟩ := gate_oper hx hop
  have hA' : built n gn x.qargs = some A := by rw [built_eq n gn hfi, ← hA]; unfold Inst.oper; rw [hop]
  have hi := holds39.1 h
  obtain ⟨B, hB, hAB⟩ := built_match hi.perm hx.qubits hA'
  exact ⟨A, B, hA, hB, holds39.2 ⟨hi.perm, hi.rel.app hi.perm hAB⟩⟩

/-! ## Whole runs -/

/-- Sum over all lists of `k` booleans. -/
def sumB : Nat → (List Bool → ℝ) → ℝ
  | 0, F => F []
  | k + 1, F => sumB k (fun o => F (false :: o)) + sumB k (fun o => F (true :: o))

/-- The outcome list has entries `true` only at measurements and resets that are executed. -/
def canonical (defer : Bool) : List (Inst × Bool) → (Nat → Bool) → Bool
  | [], _ => true
  | (x, b) :: r, val =>
    if x.enabled val then
      match x.op with
      | .measure => if defer then !b && canonical defer r val else canonical defer r (Py.upd val (x.cargs.headD 0) b)
      | .reset => canonical defer r val
      | _ => !b && canonical defer r val
    else !b && canonical defer r val

theorem sumB_zero : ∀ k, sumB k (fun _ => 0) = 0
  | 0 => rfl
  | k + 1 => by simp [sumB, sumB_zero k]

/-- The trajectories are the branches of the meaning of the circuit: their squared norms are the probabilities. -/
theorem traj_expect {n nc : Nat} {ms} (φ : (Nat → Bool) → ℝ) : ∀ (xs : List Inst), (∀ x ∈ xs, Fine n nc ms x) → ∀ (f : Nat → CR) (val : Nat → Bool),
    Py.expect n φ xs f val = sumB xs.length fun o => if canonical false (xs.zip o) val then
      Py.nrm n (traj n false (xs.zip o) (f, val)).1 * φ (traj n false (xs.zip o) (f, val)).2 else 0 := by
  intro xs
  induction xs with
  | nil => intro _ f val; rfl
  | cons x xs ih =>
    intro hf f val
    have ih := ih (fun y hy => hf y (by simp [hy]))
    have hx := hf x (by simp)
    have hfi := hx.op
    rw [List.length_cons, sumB]
    simp only [List.zip_cons_cons]
    rw [Py.expect]
    simp only [traj, canonical]
    by_cases hen : x.enabled val = true
    swap
    · simp only [hen, Bool.false_eq_true, if_false, Bool.not_false, Bool.true_and, Bool.not_true, Bool.false_and]
      rw [sumB_zero, add_zero, ih]
    · simp only [hen, if_true]
      rcases hop : x.op with ⟨g, ctl⟩ | _ | ⟨hd, k, M⟩ | _ | _ | _ | _
      · obtain ⟨A, hA, _⟩ := gate_oper hx hop
        simp only [hA, Bool.false_eq_true, if_false, Bool.not_false, Bool.true_and, Bool.not_true, Bool.false_and]
        rw [sumB_zero, add_zero, ih]
      · rw [hop] at hfi; exact absurd hfi (by simp [Op.Fine])
      · have hsp : x.oper n = some (onQubits n M x.qargs) := by unfold Inst.oper; rw [hop]
        simp only [hsp, Bool.false_eq_true, if_false, Bool.not_false, Bool.true_and, Bool.not_true, Bool.false_and]
        rw [sumB_zero, add_zero, ih]
      · simp only [Bool.false_eq_true, if_false, Bool.not_false, Bool.true_and, Bool.not_true, Bool.false_and]
        rw [sumB_zero, add_zero, ih]
      · simp only [Bool.false_eq_true, if_false]
        rw [ih, ih]
      · simp only [Bool.false_eq_true, if_false, if_true]
        rw [ih, ih]
      · rw [hop] at hfi; exact absurd hfi (by simp [Op.Fine])

/-- **C39.** A run with automatic swapping, with any number of qubits taken as global, either version of the swapping
and any choices of `set.pop`, raises nothing; for any outcomes of the measurements, the clbits of every shot are those of
the circuit executed without swapping with the same outcomes, every qubit ends at its own position, and the final state
is the state of the circuit executed without swapping.  (The squared norm of that state is the probability of these
outcomes, `traj_expect`.) -/
theorem C39_run {c : Circ} (h0 : 0 < c.nq) {ms : List (Mat ℝ)} (hf : ∀ x ∈ c.data, Fine c.nq c.nc ms x) {pop : Finset Nat → Nat}
    (hpop : ∀ s : Finset Nat, s.Nonempty → pop s ∈ s) (v2 : Bool) (g : Nat) (os : List (List Bool)) :
    let st := (classify c).stable
    ∃ cur d, mpiRun c g pop v2 st os =
        some (cur, d, os.map fun o => (List.range c.nc).map (traj c.nq st (c.data.zip o) (zeroState, fun _ => false)).2) ∧
      (∀ q < c.nq, d q = q) ∧
      ∀ o, os.getLast? = some o → ∀ i < 2 ^ c.nq, cur i = (traj c.nq st (c.data.zip o) (zeroState, fun _ => false)).1 i :=
  mpiRun_ok h0 hf hpop v2 _ g (fun hst x hx => (propLoop_steady _ _ hst x hx).2) os

/-! ## A case -/

/-- Two qubits, one of them global: `x(1)`, measured into clbit 0, twice. -/
def swapDemo : Circ := ⟨2, 1, 0, [xI 1, mI 1 0, xI 1, mI 1 0]⟩

theorem swapDemo_fine : ∀ x ∈ swapDemo.data, Fine swapDemo.nq swapDemo.nc [] x := by
  intro x hx
  simp only [swapDemo, List.mem_cons, List.not_mem_nil, or_false] at hx
  rcases hx with rfl | rfl | rfl | rfl
  · exact xI_fine (by decide) (by simp)
  · exact mI_fine (by decide) (by decide) (by simp)
  · exact xI_fine (by decide) (by simp)
  · exact mI_fine (by decide) (by decide) (by simp)

/-- The hypotheses are met and qubits are really moved: before the first gate qubits 0 and 1 are exchanged. -/
example : (autoSwap 2 swapDemo.data (fun s => if h : s.Nonempty then s.min' h else 0) false [1]
    ⟨zeroState, fun k => k, range 1, range 1, [false], 0⟩).map (fun s => (s.map 0, s.map 1)) = some (1, 0) := by
  have h1 : (range 2 \ {1} : Finset Nat).sort (· ≤ ·) = [0] := by
    rw [show (range 2 \ {1} : Finset Nat) = {0} by decide]; simp
  have h2 : ahead 1 swapDemo.data ∅ = {1} := by
    simp [ahead, swapDemo, xI, mI]
  have h3 : ((autoSwap 2 swapDemo.data (fun s => if h : s.Nonempty then s.min' h else 0) false [1]
    ⟨zeroState, fun k => k, range 1, range 1, [false], 0⟩)) = (swapV1 2 swapDemo.data 0 (range 1) (zeroState, fun k => k)).map
      fun (t, l) => ⟨t.1, t.2, range 1, l, [false], 0⟩ := by
    unfold autoSwap; simp
  rw [h3]
  unfold swapV1
  simp [h1, h2, moveTo, invLookup, setK, List.range_succ, List.idxOf, List.findIdx, List.findIdx.go]

example (os : List (List Bool)) : ∃ cur d vals, mpiRun swapDemo 1 (fun s => if h : s.Nonempty then s.min' h else 0) true
    (classify swapDemo).stable os = some (cur, d, vals) := by
  obtain ⟨cur, d, h, _⟩ := C39_run (c := swapDemo) (by decide) swapDemo_fine
    (pop := fun s => if h : s.Nonempty then s.min' h else 0) (fun s hs => by rw [dif_pos hs]; exact s.min'_mem hs) true 1 os
  exact ⟨cur, d, _, h⟩

end QDD.Props
