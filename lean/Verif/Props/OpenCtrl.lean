import Verif.Props.Actual
import Verif.Props.ProbsActual
/-!
# State vectors and probabilities of circuits with open controls (C37, C55, C56)
-/

set_option linter.unusedSectionVars false
set_option linter.unusedVariables false
set_option linter.unusedSimpArgs false

namespace QDD.Props
open Spec Api Gate Finset Py Py.Client

variable {cfg : Cfg ℝ} {thr thrM : Nat} {cs : List (Cmd ℝ)} {h : Heap ℝ} {σ : Sys ℝ} {os : List (Obs ℝ)}

/-- The circuit with all its controls closed and its `QDDGate`s moved to the lowest qubits. -/
def closed (c : Circ) : Circ := { c with data := c.data.map fun x => { x with op := closeOp x.op, qargs := readArgs x.op x.qargs } }

/-- **C56, every control state.**  The gate the backend builds for a named gate is the documented gate with all controls
closed, whatever its `ctrl_state`. -/
theorem C56_actual (n : Nat) (g : GName) (ctl : List Bool) (qs : List Nat) :
    built n g qs = g.oper n (ctl.map fun _ => true) qs := built_eq n g (closed_closeOp g ctl) qs

theorem evol_asRun (n : Nat) (u : Bool) : ∀ (xs : List Inst) (f),
    evol n (xs.map (asRunI u)) f = evol n (xs.map fun x => { x with op := closeOp x.op, qargs := readArgs x.op x.qargs }) f := by
  intro xs
  induction xs with
  | nil => intro f; rfl
  | cons x xs ih =>
    intro f
    rw [List.map_cons, List.map_cons, evol, evol]
    have : (asRunI u x).oper n = Inst.oper ({ x with op := closeOp x.op, qargs := readArgs x.op x.qargs } : Inst) n := rfl
    rw [this]
    split <;> exact ih _

theorem asRun_supported {ms : List (Mat ℝ)} {c : Circ} (hpos : 0 < c.nq) (hlim : c.nq ≤ NQUBITS) (hw : ∀ x ∈ c.data, x.WF c.nq c.nc)
    (hr : ∀ x ∈ c.data, Op.Runs c.nq ms x.op) : Supported ms (asRun c) where
  pos := hpos
  lim := hlim
  fine := by
    intro y hy
    obtain ⟨x, hx, rfl⟩ := List.mem_map.1 hy
    exact asRunI_fine (hw x hx) (hr x hx)

theorem asRun_uncond {c : Circ} (hcd : ∀ x ∈ c.data, x.cond = none) : asRun c = closed c := by
  unfold asRun closed
  congr 1
  refine List.map_congr_left fun x hx => ?_
  have := hcd x hx
  obtain ⟨op, qargs, cargs, cond⟩ := x
  dsimp only at this
  subst this
  cases op <;> cases (classify c).stable <;> rfl

/-- Without conditions the same calls are made for a circuit and for the circuit with its controls closed. -/
theorem run_closed (c : Circ) (hcl : classify (moved c) = classify c) (hcd : ∀ x ∈ c.data, x.cond = none) (o : Opts) : run (closed c) o = run c o := by
  cases hs : o.shots with
  | some s =>
    rw [← asRun_uncond hcd]
    exact run_asRun (nc := c.nc) c hcl (fun x hx d hd => by rw [hcd x hx] at hd; cases hd) hs
  | none =>
    rw [← asRun_uncond hcd]
    unfold run circProp
    rw [show propLoop (asRun c).data ⟨true, [], []⟩ = propLoop c.data ⟨true, [], []⟩ from (classify_asRun c).trans hcl]
    rw [show (asRun c).nq = c.nq from rfl]
    by_cases hn : 100 < c.nq
    · simp [hn]
    · rw [if_neg hn]
      dsimp only
      split
      · rfl
      · next cp hcp =>
        have hcp : propLoop c.data ⟨true, [], []⟩ = cp := by
          revert hcp; split
          · intro h; cases h
          · intro h; exact Option.some.inj h
        unfold evaluate
        rw [hs]
        dsimp only
        have e1 : ∀ d : Circ, (∀ x ∈ d.data, x.cond = none) → (d.data.any (·.cond.isSome)) = false := by
          intro d hd
          rw [List.any_eq_false]
          intro x hx
          simp [hd x hx]
        rw [e1 _ hcd, e1 (asRun c) (by
          intro y hy
          obtain ⟨x, hx, rfl⟩ := List.mem_map.1 hy
          cases hc : (asRunI (classify c).stable x).cond with
          | none => rfl
          | some d =>
            obtain ⟨d', h1, _⟩ := asRunI_cond hc
            rw [hcd x hx] at h1; cases h1)]
        simp only [Bool.false_eq_true, if_false]
        unfold asRun
        rw [trip_asRun (nc := c.nc) c (fun x hx d hd => by rw [hcd x hx] at hd; cases hd) (classify c).stable cp.stable false
          (by rw [show (classify c).stable = cp.stable from congrArg CircProp.stable hcp]; exact id)]

/-- **C55, all circuits.**  The state vector of any circuit classified as stable, without `UnitaryGate`, is that of its gates (controls closed, `QDDGate`s on the lowest qubits) applied to |0…0⟩, times the global phase. -/
theorem C55_actual (hR : Hist cfg thr thrM cs h σ os) {c : Circ} (hpos : 0 < c.nq) (h30 : c.nq ≤ 30)
    (hw : ∀ x ∈ c.data, x.WF c.nq c.nc) (hr : ∀ x ∈ c.data, Op.Runs c.nq h.ms x.op)
    (hcl : classify (moved c) = classify c) (hst : (classify c).stable = true) {o : Opts} (hsv : o.saveSV = true) (hcd : o.shots = none → ∀ x ∈ c.data, x.cond = none) :
    Yields cfg (run c o) σ (StateVector ((List.range (2 ^ c.nq)).map fun i =>
      evol c.nq (closed c).data zeroState i * ⟨Real.cos c.phase, Real.sin c.phase⟩)) 1 := by
  have hsup := asRun_supported (ms := h.ms) hpos (by unfold NQUBITS; omega) hw hr
  have e : run (asRun c) o = run c o := by
    cases hs : o.shots with
    | some s => exact run_asRun c hcl (fun x hx => (hw x hx).cond) hs
    | none => rw [asRun_uncond (hcd hs)]; exact run_closed c hcl (hcd hs) o
  rw [← e]
  have := C55_statevector hR hsup h30 (by rw [classify_asRun, hcl]; exact hst) hsv (by
    intro hs y hy
    obtain ⟨x, hx, rfl⟩ := List.mem_map.1 hy
    cases hc : (asRunI (classify c).stable x).cond with
    | none => rfl
    | some d =>
      obtain ⟨d', h1, _⟩ := asRunI_cond hc
      rw [hcd hs x hx] at h1; cases h1)
  refine cast ?_ this
  congr 2
  refine List.map_congr_left fun i hi => ?_
  show evol c.nq (c.data.map _) zeroState i * _ = _
  rw [evol_asRun]
  rfl

/-- **C37, what is returned, all circuits.**  Without shots, any unconditional circuit classified as stable, without
`UnitaryGate`, gives the probabilities of measuring every qubit `q` into clbit `q` after its gates
with all controls closed and `QDDGate`s on the lowest qubits. -/
theorem C37_open (hR : Hist cfg thr thrM cs h σ os) {c : Circ} (hpos : 0 < c.nq) (h30 : c.nq ≤ 30)
    (hw : ∀ x ∈ c.data, x.WF c.nq c.nc) (hr : ∀ x ∈ c.data, Op.Runs c.nq h.ms x.op)
    (hcl : classify (moved c) = classify c) (hst : (classify c).stable = true) (hcd : ∀ x ∈ c.data, x.cond = none) {o : Opts} (hmd : Measured c o) (hs : o.shots = none) :
    Yields cfg (run c o) σ (Probs (outcomes (measuredAll (closed c)))) 1 := by
  have hsup := asRun_supported (ms := h.ms) hpos (by unfold NQUBITS; omega) hw hr
  have hcl' := (classify_asRun c).trans hcl
  rw [asRun_uncond hcd] at hsup hcl'
  rw [← run_closed c hcl hcd o]
  refine C37_actual hR hsup h30 (by rw [hcl']; exact hst) ?_ ?_ hs
  · intro y hy
    obtain ⟨x, hx, rfl⟩ := List.mem_map.1 hy
    exact hcd x hx
  · rcases hmd with h | h
    · exact .inl h
    · right; rw [hcl']; exact h

/-- `cx` with `ctrl_state = 0` on |00⟩: the state vector is |00⟩ although the gate flips qubit 1. -/
example (hR : Hist cfg thr thrM cs h σ os) : Yields cfg (run openCtrl ⟨some 1, true⟩) σ (StateVector ((List.range 4).map fun i =>
    evol 2 openCtrl'.data zeroState i * ⟨Real.cos 0, Real.sin 0⟩)) 1 :=
  C55_actual hR (c := openCtrl) (by decide) (by decide) (by
    intro x hx
    simp only [openCtrl, List.mem_cons, List.mem_nil_iff, or_false] at hx
    rcases hx with rfl | rfl
    · exact { distinct := by simp, qubits := by simp [openCtrl], clbits := by simp, arity := ⟨rfl, by simp [GName.mat1]⟩, cond := by simp }
    · exact (mI_fine (ms := h.ms) (by decide) (by decide) (by simp)).toWF) (by
    intro x hx
    simp only [openCtrl, List.mem_cons, List.mem_nil_iff, or_false] at hx
    rcases hx with rfl | rfl <;> trivial) rfl rfl rfl (by simp)

end QDD.Props
