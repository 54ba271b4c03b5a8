import Verif.Props.Algebra
/-!
# A concrete history, used to show that hypotheses are met
-/

set_option linter.unusedSectionVars false

namespace QDD.Props
open Spec Api Finset

/-- Pauli X. -/
def demoX : Nat → Nat → C ℚ := fun r c => if r = c then 0 else 1
/-- A matrix that is not diagonal, with distinct entries. -/
def demoG : Nat → Nat → C ℚ := fun r c => ⟨r + 2 * c + 1, r * c⟩

/-- `zero(2)`, `one(2)`, X on qubit 1 with a negative control on qubit 0, a 4x4 gate on (0, 1), `ident`. -/
def demoCmds : List (Cmd ℚ) :=
  [.zero 2, .one 2, .gate 2 demoX 1 [⟨0, true⟩], .gate2 2 demoG 0 1 [], .ident]

def demoM0 : Mat ℚ := ⟨2, Spec.gate1 2 demoX 1 [⟨0, true⟩]⟩
def demoM1 : Mat ℚ := ⟨2, Spec.gate2 2 demoG 0 1 []⟩
def demoHeap : Heap ℚ := ⟨[basis 2 0, basis 2 3], [demoM0, demoM1, ⟨0, fun _ _ => 1⟩]⟩

theorem demo_runs (sqrt : ℚ → ℚ) :
    Runs sqrt NQUBITS demoCmds demoHeap [.unit, .unit, .unit, .unit, .unit] := by
  have r0 : Runs sqrt NQUBITS ([] : List (Cmd ℚ)) ⟨[], []⟩ [] := .nil
  have r1 := r0.cons (c := .zero 2) ⟨by decide, by decide⟩ rfl
  have r2 := r1.cons (c := .one 2) ⟨by decide, by decide⟩ rfl
  have r3 := r2.cons (c := .gate 2 demoX 1 [⟨0, true⟩]) ⟨by decide, by decide, by simp, by simp⟩ rfl
  have r4 := r3.cons (c := .gate2 2 demoG 0 1 []) ⟨by decide, by decide, by decide, by decide, by simp, by simp⟩ rfl
  have r5 := r4.cons (c := .ident) trivial rfl
  exact r5

/-- For every configuration there is a machine state reached by the demo history. -/
theorem demo_hist (cfg : Cfg ℚ) (thr thrM : Nat) :
    ∃ σ, Hist cfg thr thrM demoCmds demoHeap σ [.unit, .unit, .unit, .unit, .unit] :=
  Hist.of_runs cfg thr thrM (demo_runs cfg.sqrt)

theorem demo_apply : (demoM0.apply (basis 2 0)).f 2 = 1 := by
  show ∑ j ∈ range 4, demoM0.at 2 2 j * (basis 2 0 : Vec ℚ).f j = 1
  have h0 : demoM0.at 2 2 0 = 1 := by
    rw [show (2 : Nat) = demoM0.k from rfl, at_self demoM0 (by decide) (by decide)]
    show Spec.gate1 2 demoX 1 [⟨0, true⟩] 2 0 = 1
    unfold Spec.gate1
    rw [if_pos (by decide), if_pos (by decide)]
    rfl
  simp [Finset.sum_range_succ, basis, h0]

/-- C01's hypotheses are met: X on the zero state. -/
example (cfg : Cfg ℚ) : ∃ σ A f, Hist cfg 5 5 demoCmds demoHeap σ [.unit, .unit, .unit, .unit, .unit] ∧
    demoHeap.ms[0]? = some demoM0 ∧ demoHeap.vs[0]? = some (basis 2 0) ∧ (basis 2 0 : Vec ℚ).Nonzero ∧
    ReadsM cfg σ 0 2 A ∧ ReadsV cfg σ 0 2 f ∧ ∃ i < 2 ^ 2, ∑ j ∈ range (2 ^ 2), A i j * f j ≠ 0 := by
  obtain ⟨σ, hσ⟩ := demo_hist cfg 5 5
  have hz : (basis 2 0 : Vec ℚ).Nonzero := basis_nonzero (by decide)
  refine ⟨σ, _, _, hσ, rfl, rfl, hz, hσ.readsM (m := 0) (M := demoM0) rfl (by decide) (by decide),
    hσ.readsV (v := 0) (V := basis 2 0) rfl hz (by decide), 2, by decide, ?_⟩
  rw [show (∑ j ∈ range (2 ^ 2), demoM0.at 2 2 j * (basis 2 0 : Vec ℚ).f j) = 1 from demo_apply]
  exact one_ne_zero

/-- C02, C03 (matrices): the two gates. -/
example (cfg : Cfg ℚ) : ∃ σ F G, Hist cfg 5 5 demoCmds demoHeap σ [.unit, .unit, .unit, .unit, .unit] ∧
    demoHeap.ms[0]? = some demoM0 ∧ demoHeap.ms[1]? = some demoM1 ∧ ReadsM cfg σ 0 3 F ∧ ReadsM cfg σ 1 3 G := by
  obtain ⟨σ, hσ⟩ := demo_hist cfg 5 5
  exact ⟨σ, _, _, hσ, rfl, rfl, hσ.readsM (m := 0) (M := demoM0) rfl (by decide) (by decide),
    hσ.readsM (m := 1) (M := demoM1) rfl (by decide) (by decide)⟩

/-- C03 (vectors), C04 (vectors): the two states. -/
example (cfg : Cfg ℚ) : ∃ σ f g, Hist cfg 5 5 demoCmds demoHeap σ [.unit, .unit, .unit, .unit, .unit] ∧
    demoHeap.vs[0]? = some (basis 2 0) ∧ demoHeap.vs[1]? = some (basis 2 3) ∧ (basis 2 0 : Vec ℚ).Nonzero ∧
    (basis 2 3 : Vec ℚ).Nonzero ∧ ReadsV cfg σ 0 2 f ∧ ReadsV cfg σ 1 2 g ∧ ∃ i < 2 ^ 2, f i + g i ≠ 0 := by
  obtain ⟨σ, hσ⟩ := demo_hist cfg 5 5
  have hz : (basis 2 0 : Vec ℚ).Nonzero := basis_nonzero (by decide)
  have ho : (basis 2 3 : Vec ℚ).Nonzero := basis_nonzero (by decide)
  exact ⟨σ, _, _, hσ, rfl, rfl, hz, ho, hσ.readsV (v := 0) (V := basis 2 0) rfl hz (by decide),
    hσ.readsV (v := 1) (V := basis 2 3) rfl ho (by decide), 0, by decide, by simp [basis]⟩

/-- C04 (matrices): the controlled X is not an identity on its top qubit. -/
theorem demoM0_not_top : ¬ demoM0.TopIdentity := by
  rintro ⟨G, hG, h⟩
  have hk : G.k = 1 := by simpa [demoM0] using hG
  have := h 2 (by decide) 0 (by decide)
  have h1 : demoM0.F 2 0 = 1 := by
    show Spec.gate1 2 demoX 1 [⟨0, true⟩] 2 0 = 1
    unfold Spec.gate1
    rw [if_pos (by decide), if_pos (by decide)]
    rfl
  rw [h1] at this
  unfold Mat.at at this
  rw [hk] at this
  simp at this

end QDD.Props
