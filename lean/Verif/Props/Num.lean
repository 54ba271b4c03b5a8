import Verif.Num.Machine
import Verif.Num.Float
import Verif.Py.Gates
/-!
# C57: numerical accuracy of state-vector simulation

`Num.Run` (Num/Machine.lean) runs the engine in rounded arithmetic, with its tolerances, under any schedules, beside the
specification over exact real numbers.
-/

set_option linter.unusedSectionVars false
set_option linter.unusedVariables false
set_option linter.unusedSimpArgs false

namespace QDD.Props
open QDD.Num QDD.Safe Prog
open Spec (C Vec Mat Heap Cmd Ctrl)

section generic
variable {R W : Type} [WOps W] [ROps R W] [RoundW W] [NumW W] {env : Env W} {mt : Bool} {thr thrM : Nat}
variable {cs : List (Safe.Call R W)} {h : Heap ℝ} {q : Cost} {σ : Safe.Sys R W}

/-- The counts are a function of the calls alone. -/
theorem run_cost (hR : Run env mt thr thrM cs h q σ) : q = cs.foldl Cost.after ⟨[], []⟩ := by
  induction hR with
  | init => rfl
  | call _ _ _ _ _ _ ih => rw [List.foldl_append, ← ih]; rfl

/-- A call within its precondition and its budget: no error state is reachable; if the call runs its tasks in parallel (all but
products of matrices and SWAP do), wherever a schedule has got to it can still be completed; and it does complete. -/
theorem C57_call_total (hR : Run env mt thr thrM cs h q σ) {c : Safe.Call R W} {c' : Cmd ℝ} (hr : Rounded c c')
    (hp : Spec.pre NQUBITS h c') (hb : Budget h q c) {h' o'} (hst : Spec.step Real.sqrt h c' = some (h', o')) :
    ¬ Safe.CanFault env mt σ c ∧
    (c.seq = false → ∀ fk p s, Steps (Safe.prog env mt fk σ.d c) σ.st p s → ∃ a s', Steps p s (Prog.ret a) s') ∧
    ∃ o σ', Safe.Exec env mt σ c o σ' ∧ Run env mt thr thrM (cs ++ [c]) h' (q.after c) σ' := by
  have hn := hR.near
  by_cases hc : c.seq = false
  · have ht := fun fk => call_num mt fk hn.1 hn.2 hr hc hp hb hst
    refine ⟨?_, fun _ fk p s hs => ((ht fk).1 p s hs).2, ?_⟩
    · intro hf
      cases hf with
      | conc _ hs hf => exact ((ht _).1 _ _ hs).1 hf
      | seq hc' hs => rw [hc] at hc'; cases hc'
    · obtain ⟨⟨d, o⟩, s', hs⟩ := ((ht fun _ => false).1 _ _ .refl).2
      have he : Safe.Exec env mt σ c o ⟨d, s'⟩ := .conc hc hs
      exact ⟨o, _, he, .call hR hr hp hb hst he⟩
  · have hc1 : c.seq = true := by simpa using hc
    have ht := fun fk => seq_num mt fk hn.1 hn.2 hr hc1 hp hb hst
    refine ⟨?_, fun h => absurd h hc, ?_⟩
    · intro hf
      cases hf with
      | conc hc' hs hf => exact hc hc'
      | @seq fk er _ hs =>
        obtain ⟨a, s', h1, _⟩ := ht fk
        rw [hs] at h1
        cases h1
    · obtain ⟨⟨d, o⟩, s', hs, _⟩ := ht fun _ => false
      have he : Safe.Exec env mt σ c o ⟨d, s'⟩ := .seq hc1 hs
      exact ⟨o, _, he, .call hR hr hp hb hst he⟩

/-- **C57.**  After any history of calls in rounded arithmetic, under any schedules, the array `getVector` returns differs
from the exact amplitudes by at most `√(2^k) · 1100 ε (k+1)² · (cost + 1)` in 2-norm, `cost` the number of calls the state
went through. -/
theorem C57_accuracy (hR : Run env mt thr thrM cs h q σ) {v : Nat} {V : Vec ℝ} (hv : h.vs[v]? = some V) (hk : V.k ≤ 30)
    (hb : √(2 ^ V.k) * (1100 * NumW.eps W * ((V.k : ℝ) + 1) ^ 2) * q.vs.getD v 0 < 1) :
    ¬ Safe.CanFault env mt σ (.getVector v) ∧
    (∃ o σ', Safe.Exec env mt σ (.getVector v) o σ') ∧
    ∀ o σ', Safe.Exec env mt σ (.getVector v) o σ' → ∃ a, o = .vec a ∧ a.dim = 2 ^ V.k ∧ ∃ x : Nat → W,
      (∀ i < 2 ^ V.k, a.cell i = some (x i)) ∧
      √(∑ i ∈ Finset.range (2 ^ V.k), ‖NumW.val (x i) - (⟨(V.f i).r, (V.f i).i⟩ : ℂ)‖ ^ 2) ≤
        √(2 ^ V.k) * (1100 * NumW.eps W * ((V.k : ℝ) + 1) ^ 2) * (q.vs.getD v 0 + 1) := by
  have hn := hR.near
  have hb' : Budget h q (.getVector v : Safe.Call R W) := fun V' hV' => by
    rw [hv] at hV'; cases hV'; exact hb
  have hnz : V.Nonzero := by
    obtain ⟨c, e, _, _, hx⟩ := hn.2.vs.get hv
    by_contra hz
    have : n2 V.k (fun i => toC (V.f i)) = 0 := by
      rw [n2_congr (g := fun _ => 0) fun i hi => by
        have : V.f i = 0 := by
          by_contra h0
          exact hz ⟨i, hi, h0⟩
        rw [this, toC_zero]]
      simp [n2]
    rw [hx.unit] at this
    exact one_ne_zero this
  have hp : Spec.pre NQUBITS h (.getVector v) := ⟨V, hv, hnz, hk⟩
  have hst : Spec.step Real.sqrt h (.getVector v) =
      some (h, .vec ((List.range (2 ^ V.k)).map fun i => some (V.f i))) := by
    simp only [Spec.step, hv, Option.bind_eq_bind, Option.bind_some]
  have hr : Rounded (.getVector v : Safe.Call R W) (.getVector v) := .getVector v
  obtain ⟨h1, _, o, σ', h3, _⟩ := C57_call_total hR hr hp hb' hst
  refine ⟨h1, ⟨o, σ', h3⟩, fun o σ' he => ?_⟩
  obtain ⟨a, e1, e2, x, e3, e4⟩ := (exec_num hn.1 hn.2 hr hp hb' hst he).2.2.1 v V rfl hv
  exact ⟨a, e1, e2, x, e3, e4⟩

/-! ## Circuits -/

/-- Calls executed one after the other, each in any schedule. -/
inductive Execs (env : Env W) (mt : Bool) : Safe.Sys R W → List (Safe.Call R W) → Safe.Sys R W → Prop
  | nil {τ : Safe.Sys R W} : Execs env mt τ [] τ
  | snoc {τ l τ1 c o τ2} : Execs env mt τ l τ1 → Safe.Exec env mt τ1 c o τ2 → Execs env mt τ (l ++ [c]) τ2

/-- `c` builds a gate on `n` qubits whose entries are within `ε` of those of a unitary; `M` is the exact operator. -/
structure GateCall (n : Nat) (c : Safe.Call R W) (c' : Cmd ℝ) (M : Mat ℝ) : Prop where
  rounded : Rounded c c'
  mat : ∀ h, Spec.step Real.sqrt h c' = some (h.addM M, .unit)
  qubits : M.k = n
  ok : ∀ h, Spec.pre NQUBITS h c'
  bud : ∀ h q, Budget h q c

/-- What is known of the matrix a gate call builds. -/
def gateCost : Safe.Call R W → MCost
  | .gate2 _ _ _ _ _ | .cswap _ _ _ _ => ⟨4, 1⟩
  | .swap _ _ _ => ⟨8, 184⟩
  | _ => ⟨2, 1⟩

/-- The count of a gate: one, and 184 for SWAP, which is built by two products of matrices. -/
def gateErr : Safe.Call R W → Nat
  | .swap _ _ _ => 184
  | _ => 1

theorem gateCost_err (c : Safe.Call R W) : (gateCost c).err = gateErr c := by cases c <;> rfl

/-- The count of a circuit: one for the initial state, and those of its gates. -/
def circErr (gs : List (Safe.Call R W × Mat ℝ)) : Nat := 1 + (gs.map fun p => gateErr p.1).sum

theorem circErr_snoc (gs : List (Safe.Call R W × Mat ℝ)) (g) : circErr (gs ++ [g]) = circErr gs + gateErr g.1 := by
  simp [circErr, Nat.add_assoc]

theorem gateErr_pos (c : Safe.Call R W) : 1 ≤ gateErr c := by cases c <;> simp [gateErr]

/-- The counts after the program of a circuit. -/
def circCost (gs : List (Safe.Call R W × Mat ℝ)) : Cost :=
  ⟨(List.range (gs.length + 1)).map fun i => circErr (gs.take i), gs.map fun p => gateCost p.1⟩

theorem circCost_last (gs : List (Safe.Call R W × Mat ℝ)) : (circCost gs).vs.getD gs.length 0 = circErr gs := by
  rw [List.getD_eq_getElem?_getD]; simp [circCost]

theorem circCost_snoc (gs : List (Safe.Call R W × Mat ℝ)) (g) : circCost (gs ++ [g]) =
    ⟨(circCost gs).vs ++ [circErr gs + gateErr g.1], (circCost gs).ms ++ [gateCost g.1]⟩ := by
  unfold circCost
  rw [List.length_append, List.length_singleton, List.range_succ (n := gs.length + 1), List.map_append, List.map_append]
  refine congrArg₂ Cost.mk ?_ rfl
  refine congrArg₂ _ (List.map_congr_left fun i hi => ?_) ?_
  · rw [List.mem_range] at hi
    rw [List.take_append_of_le_length (by omega)]
  · simp [List.take_of_length_le, circErr_snoc]

theorem GateCall.after {n : Nat} {c : Safe.Call R W} {c' : Cmd ℝ} {M : Mat ℝ} (hg : GateCall n c c' M) (q : Cost) :
    q.after c = ⟨q.vs, q.ms ++ [gateCost c]⟩ := by
  have hm := hg.mat ⟨[], []⟩
  cases hg.rounded with
  | gate | gate2 | cx | cswap | swap => rfl
  | gcMat force keep =>
    exfalso
    cases keep with
    | nil => simp [Spec.step, Heap.addM] at hm
    | cons i keep => simp [Spec.step, Heap.addM, List.mapM_cons] at hm
  | gc force keep =>
    exfalso
    cases keep with
    | nil => simp [Spec.step, Heap.addM] at hm
    | cons i keep => simp [Spec.step, Heap.addM, List.mapM_cons] at hm
  | zero | one | mv | getVector | mmul =>
    exfalso
    simp [Spec.step, Heap.addM, Heap.addV] at hm

/-- The program of a circuit: the all-zero state of `n` qubits, then each gate built and applied to the latest state. -/
def circ (n : Nat) (gs : List (Safe.Call R W × Mat ℝ)) : List (Safe.Call R W) :=
  .zero n :: gs.zipIdx.flatMap fun p => [p.1.1, .mv p.2 p.2]

/-- The exact states after each gate. -/
noncomputable def states (n : Nat) (gs : List (Safe.Call R W × Mat ℝ)) : List (Vec ℝ) :=
  (List.range (gs.length + 1)).map fun i => (gs.take i).foldl (fun V p => p.2.apply V) (Spec.basis n 0)

theorem circ_snoc (n : Nat) (gs : List (Safe.Call R W × Mat ℝ)) (g) :
    circ n (gs ++ [g]) = (circ n gs ++ [g.1]) ++ [.mv gs.length gs.length] := by
  simp [circ, List.zipIdx_append]

theorem states_snoc (n : Nat) (gs : List (Safe.Call R W × Mat ℝ)) (g) :
    states n (gs ++ [g]) = states n gs ++ [g.2.apply (gs.foldl (fun V p => p.2.apply V) (Spec.basis n 0))] := by
  unfold states
  rw [List.length_append, List.length_singleton, List.range_succ (n := gs.length + 1), List.map_append]
  congr 1
  · refine List.map_congr_left fun i hi => ?_
    rw [List.mem_range] at hi
    rw [List.take_append_of_le_length (by omega)]
  · simp [List.take_of_length_le]

theorem states_last (n : Nat) (gs : List (Safe.Call R W × Mat ℝ)) :
    (states n gs)[gs.length]? = some (gs.foldl (fun V p => p.2.apply V) (Spec.basis n 0)) := by
  simp [states]

theorem states_k (n : Nat) (gs : List (Safe.Call R W × Mat ℝ)) :
    (gs.foldl (fun V p => p.2.apply V) (Spec.basis n 0) : Vec ℝ).k = n := by
  induction gs using List.reverseRecOn with
  | nil => rfl
  | append_singleton gs g ih => rw [List.foldl_append]; exact ih

theorem circuit_run {n : Nat} (hn : 0 < n) (hN : n ≤ NQUBITS) (gs : List (Safe.Call R W × Mat ℝ))
    (hg : ∀ p ∈ gs, ∃ c', GateCall n p.1 c' p.2) (hb : kap W n * circErr gs ≤ 1) :
    (∃ σ, Execs env mt (Safe.Sys.init thr thrM) (circ n gs) σ) ∧
    ∀ σ, Execs env mt (Safe.Sys.init thr thrM) (circ n gs) σ →
      Run env mt thr thrM (circ n gs) ⟨states n gs, gs.map (·.2)⟩ (circCost gs) σ := by
  induction gs using List.reverseRecOn with
  | nil =>
    have hp : Spec.pre NQUBITS (⟨[], []⟩ : Heap ℝ) (.zero n) := ⟨hn, hN⟩
    have hst : Spec.step Real.sqrt (⟨[], []⟩ : Heap ℝ) (.zero n) = some (⟨[Spec.basis n 0], []⟩, .unit) := rfl
    have hr : Rounded (.zero n : Safe.Call R W) (.zero n) := .zero n
    have hR : Run env mt thr thrM [] ⟨[], []⟩ ⟨[], []⟩ (Safe.Sys.init thr thrM : Safe.Sys R W) := .init
    constructor
    · obtain ⟨_, _, o, σ', h3, _⟩ := C57_call_total hR hr hp trivial hst
      exact ⟨σ', .snoc .nil h3⟩
    · intro σ he
      generalize hc : circ n ([] : List (Safe.Call R W × Mat ℝ)) = l at he
      cases he with
      | nil => cases hc
      | @snoc cs1 σ1 c o _ h1 h2 =>
        have hc : ([] : List (Safe.Call R W)) ++ [.zero n] = cs1 ++ [c] := hc
        obtain ⟨e1, e2⟩ := List.append_inj' hc rfl
        cases e2
        subst e1
        generalize hc1 : ([] : List (Safe.Call R W)) = l1 at h1
        cases h1 with
        | nil => exact .call hR hr hp trivial hst h2
        | snoc _ _ => simp at hc1
  | append_singleton gs g ih =>
    rw [circErr_snoc] at hb
    have hkn : 0 ≤ kap W n := kap_nn n
    have hb0 : kap W n * circErr gs ≤ 1 := by
      push_cast at hb
      nlinarith [show (0 : ℝ) ≤ gateErr g.1 from Nat.cast_nonneg _]
    obtain ⟨⟨σ0, x0⟩, ih⟩ := ih (fun p hp => hg p (by simp [hp])) hb0
    obtain ⟨c', gc⟩ := hg g (by simp)
    have hV := states_last n gs
    -- building the gate
    have s1 : ∀ σ, Run env mt thr thrM (circ n gs) ⟨states n gs, gs.map (·.2)⟩ (circCost gs) σ →
        (∃ o σ1, Safe.Exec env mt σ g.1 o σ1) ∧ ∀ o σ1, Safe.Exec env mt σ g.1 o σ1 →
        Run env mt thr thrM (circ n gs ++ [g.1]) ⟨states n gs, gs.map (·.2) ++ [g.2]⟩
          ⟨(circCost gs).vs, (circCost gs).ms ++ [gateCost g.1]⟩ σ1 := by
      intro σ hR
      have hbud : Budget ⟨states n gs, gs.map (·.2)⟩ (circCost gs) g.1 := gc.bud _ _
      obtain ⟨_, _, o, σ', h3, _⟩ := C57_call_total hR gc.rounded (gc.ok _) hbud (gc.mat _)
      refine ⟨⟨o, σ', h3⟩, fun o σ1 he => ?_⟩
      have h5 := Run.call hR gc.rounded (gc.ok _) hbud (gc.mat _) he
      rw [gc.after] at h5
      exact h5
    -- applying it
    have s2 : ∀ σ, Run env mt thr thrM (circ n gs ++ [g.1]) ⟨states n gs, gs.map (·.2) ++ [g.2]⟩
          ⟨(circCost gs).vs, (circCost gs).ms ++ [gateCost g.1]⟩ σ →
        (∃ o σ1, Safe.Exec env mt σ (.mv gs.length gs.length) o σ1) ∧ ∀ o σ1, Safe.Exec env mt σ (.mv gs.length gs.length) o σ1 →
        Run env mt thr thrM (circ n (gs ++ [g])) ⟨states n (gs ++ [g]), (gs ++ [g]).map (·.2)⟩
          (circCost (gs ++ [g])) σ1 := by
      intro σ hR
      have hm : (gs.map (·.2) ++ [g.2])[gs.length]? = some g.2 := by simp
      have hp : Spec.pre NQUBITS (⟨states n gs, gs.map (·.2) ++ [g.2]⟩ : Heap ℝ) (.mv gs.length gs.length) :=
        ⟨_, _, hm, hV, by rw [gc.qubits, states_k]⟩
      have hq1 : (circCost gs).vs.getD gs.length 0 = circErr gs := circCost_last gs
      have hq2 : (⟨(circCost gs).vs, (circCost gs).ms ++ [gateCost g.1]⟩ : Cost).mat gs.length = gateCost g.1 := by
        unfold Cost.mat
        rw [List.getD_eq_getElem?_getD, List.getElem?_append_right (by simp [circCost])]; simp [circCost]
      have hbud : Budget (⟨states n gs, gs.map (·.2) ++ [g.2]⟩ : Heap ℝ)
          ⟨(circCost gs).vs, (circCost gs).ms ++ [gateCost g.1]⟩ (.mv gs.length gs.length : Safe.Call R W) := by
        intro M V hM' hV'
        rw [show ((⟨states n gs, gs.map (·.2) ++ [g.2]⟩ : Heap ℝ).ms)[gs.length]? = _ from hm] at hM'
        rw [show ((⟨states n gs, gs.map (·.2) ++ [g.2]⟩ : Heap ℝ).vs)[gs.length]? = _ from hV] at hV'
        cases hM'; cases hV'
        refine ⟨by rw [gc.qubits, states_k], ?_⟩
        rw [states_k]
        show kap W n * ((circCost gs).vs.getD gs.length 0 : Nat) ≤ 1
        rw [hq1]
        exact hb0
      have hst : Spec.step Real.sqrt (⟨states n gs, gs.map (·.2) ++ [g.2]⟩ : Heap ℝ) (.mv gs.length gs.length) =
          some (⟨states n (gs ++ [g]), (gs ++ [g]).map (·.2)⟩, .unit) := by
        simp only [Spec.step, hm, hV, Option.bind_eq_bind, Option.bind_some, Heap.addV, states_snoc]
        simp
      have hr : Rounded (.mv gs.length gs.length : Safe.Call R W) (.mv gs.length gs.length) := .mv _ _
      obtain ⟨_, _, o, σ', h3, _⟩ := C57_call_total hR hr hp hbud hst
      refine ⟨⟨o, σ', h3⟩, fun o σ1 he => ?_⟩
      have h5 := Run.call hR hr hp hbud hst he
      have hq : (⟨(circCost gs).vs, (circCost gs).ms ++ [gateCost g.1]⟩ : Cost).after (.mv gs.length gs.length : Safe.Call R W) =
          (circCost (gs ++ [g])) := by
        rw [circCost_snoc]
        show Cost.mk ((circCost gs).vs ++ [(circCost gs).vs.getD gs.length 0 + (Cost.mat _ gs.length).err]) _ = _
        rw [hq1, hq2, gateCost_err]
      rw [hq] at h5
      rw [circ_snoc]
      exact h5
    constructor
    · obtain ⟨o1, σ1, e1⟩ := (s1 σ0 (ih σ0 x0)).1
      obtain ⟨o2, σ2, e2⟩ := (s2 σ1 ((s1 σ0 (ih σ0 x0)).2 o1 σ1 e1)).1
      exact ⟨σ2, by rw [circ_snoc]; exact .snoc (.snoc x0 e1) e2⟩
    · intro σ he
      rw [circ_snoc] at he
      generalize hl : circ n gs ++ [g.1] ++ [.mv gs.length gs.length] = l at he
      cases he with
      | nil => simp at hl
      | @snoc cs1 σ1 c o _ h1 h2 =>
        obtain ⟨e1, e2⟩ := List.append_inj' hl rfl
        cases e2
        generalize hl1 : cs1 = l1 at h1
        subst hl1
        cases h1 with
        | nil => simp at e1
        | @snoc cs2 σ2 c1 o1 _ h3 h4 =>
          obtain ⟨e3, e4⟩ := List.append_inj' e1 rfl
          cases e4
          subst e3
          exact (s2 σ1 ((s1 σ2 (ih σ2 h3)).2 _ _ h4)).2 _ _ h2

/-- **C57, circuits.**  A circuit of `L` gates on `n` qubits, `L` small enough: the program can be executed, no execution of
it followed by a read-out faults, and every amplitude read out is within `√(2^n) · 1100 ε (n+1)² · (c+1)` of the exact
amplitude of the circuit's final state, `c = L+1` if no gate is SWAP; each SWAP adds 183 (`circErr`). -/
theorem C57_circuit {n : Nat} (hn : 0 < n) (hN : n ≤ 30) (gs : List (Safe.Call R W × Mat ℝ))
    (hg : ∀ p ∈ gs, ∃ c', GateCall n p.1 c' p.2) (hb : √(2 ^ n) * (1100 * NumW.eps W * ((n : ℝ) + 1) ^ 2) * circErr gs < 1) :
    (∃ σ, Execs env mt (Safe.Sys.init thr thrM) (circ n gs) σ) ∧
    ∀ σ, Execs env mt (Safe.Sys.init thr thrM) (circ n gs) σ → ¬ Safe.CanFault env mt σ (.getVector gs.length) ∧
      (∃ o σ', Safe.Exec env mt σ (.getVector gs.length) o σ') ∧
      ∀ o σ', Safe.Exec env mt σ (.getVector gs.length) o σ' → ∃ a, o = .vec a ∧ a.dim = 2 ^ n ∧ ∃ x : Nat → W,
        (∀ i < 2 ^ n, a.cell i = some (x i)) ∧
        ∀ i < 2 ^ n, ‖NumW.val (x i) - toC ((gs.foldl (fun V p => p.2.apply V) (Spec.basis n 0)).f i)‖ ≤
          √(2 ^ n) * (1100 * NumW.eps W * ((n : ℝ) + 1) ^ 2) * (circErr gs + 1) := by
  have hk : 0 ≤ kap W n := kap_nn n
  have hb' : kap W n * circErr gs < 1 := hb
  obtain ⟨h1, h2⟩ := circuit_run (env := env) (mt := mt) (thr := thr) (thrM := thrM) hn (by unfold NQUBITS; omega) gs hg hb'.le
  refine ⟨h1, fun σ he => ?_⟩
  have hR := h2 σ he
  have hq1 : (circCost gs).vs.getD gs.length 0 = circErr gs := circCost_last gs
  obtain ⟨a1, a2, a3⟩ := C57_accuracy hR (states_last n gs) (by rw [states_k]; exact hN) (by
    rw [states_k, hq1]; exact hb)
  refine ⟨a1, a2, fun o σ' he => ?_⟩
  obtain ⟨a, e1, e2, x, e3, e4⟩ := a3 o σ' he
  rw [states_k] at e2 e3 e4
  refine ⟨a, e1, e2, x, e3, fun i hi => ?_⟩
  refine (le_n2 (f := fun i => NumW.val (x i) - toC ((gs.foldl (fun V p => p.2.apply V) (Spec.basis n 0)).f i)) hi).trans ?_
  refine e4.trans (le_of_eq ?_)
  rw [hq1]

end generic

open Rounding

/-! ## `double` -/

section dbl
variable (ρ : Rounding ℝ) (hρ : Accurate ρ) (sqrt : ρ.Num → ρ.Num)

/-- `call` builds a gate on `n` qubits from entries within `2^-41` of those of a unitary; `M` is the exact operator. -/
abbrev DblGate (n : Nat) (call : Safe.Call ρ.Num (FCx ρ dblTol)) (c' : Cmd ℝ) (M : Mat ℝ) : Prop :=
  @GateCall _ _ _ (roundW ρ dblTol_nn dblTol_lt) (numW ρ hρ) n call c' M

/-- **C57 for `double`.**  `struct Complex` of dd.h with `TOLERANCE = 2^-42` and any rounding with relative error `2^-52`
(and underflow error `2^-200`): after a circuit of `L` gates on `n` qubits, for every `env` and all schedules, each amplitude
read out is within `√(2^n) · 1100 · 2^-41 · (n+1)² · (c+1)` of the exact one, `c` as in C57_circuit. -/
theorem C57_double {env : Env (FCx ρ dblTol)} {mt : Bool} {thr thrM : Nat} {n : Nat} (hn : 0 < n) (hN : n ≤ 30)
    (gs : List (Safe.Call ρ.Num (FCx ρ dblTol) × Mat ℝ)) (hg : ∀ p ∈ gs, ∃ c', DblGate ρ hρ n p.1 c' p.2)
    (hb : √(2 ^ n) * (1100 * (1 / 2 ^ 41) * ((n : ℝ) + 1) ^ 2) * circErr gs < 1) :
    (∃ σ, @Execs _ _ _ (measOps ρ dblTol sqrt) env mt (Safe.Sys.init thr thrM) (circ n gs) σ) ∧
    ∀ σ, @Execs _ _ _ (measOps ρ dblTol sqrt) env mt (Safe.Sys.init thr thrM) (circ n gs) σ →
      ¬ @Safe.CanFault _ _ _ (measOps ρ dblTol sqrt) env mt σ (.getVector gs.length) ∧
      (∃ o σ', @Safe.Exec _ _ _ (measOps ρ dblTol sqrt) env mt σ (.getVector gs.length) o σ') ∧
      ∀ o σ', @Safe.Exec _ _ _ (measOps ρ dblTol sqrt) env mt σ (.getVector gs.length) o σ' →
        ∃ a, o = .vec a ∧ a.dim = 2 ^ n ∧ ∃ x : Nat → FCx ρ dblTol, (∀ i < 2 ^ n, a.cell i = some (x i)) ∧
          ∀ i < 2 ^ n, ‖(⟨(x i).r.1, (x i).i.1⟩ : ℂ) - toC ((gs.foldl (fun V p => p.2.apply V) (Spec.basis n 0)).f i)‖ ≤
            √(2 ^ n) * (1100 * (1 / 2 ^ 41) * ((n : ℝ) + 1) ^ 2) * (circErr gs + 1) := by
  letI := measOps ρ dblTol sqrt
  letI := roundW ρ dblTol_nn dblTol_lt
  letI := numW ρ hρ
  exact C57_circuit (env := env) (mt := mt) (thr := thr) (thrM := thrM) hn hN gs hg hb

/-- A one-qubit gate with rounded entries. -/
theorem dblGate1 {n t : Nat} {cs : List Ctrl} {u : Nat → Nat → C ℝ} (hu : Isometry 1 u) (ht : t < n) (hn : n ≤ NQUBITS)
    (hcs : cs.Pairwise (fun a b => a.qubit < b.qubit)) (hct : ∀ c ∈ cs, c.qubit ≠ t)
    (hsmall : ∀ r < 2, ∀ c < 2, |(u r c).r| ≤ 1 ∧ |(u r c).i| ≤ 1) :
    DblGate ρ hρ n (.gate n (fun r c => ⟨ρ.rnd (u r c).r, ρ.rnd (u r c).i⟩) t (Api.ctl cs)) (.gate n u t cs)
      ⟨n, Spec.gate1 n u t cs⟩ := by
  letI := roundW ρ dblTol_nn dblTol_lt
  letI := numW ρ hρ
  refine ⟨.gate hu fun r hr c hc => ?_, fun h => rfl, rfl, fun h => ⟨ht, hn, hcs, hct⟩, fun h q => trivial⟩
  show ‖(⟨ρ.rd (u r c).r - (u r c).r, ρ.rd (u r c).i - (u r c).i⟩ : ℂ)‖ ≤ 1 / 2 ^ 41
  refine (norm_le_sum _).trans ?_
  dsimp only
  have h1 := hρ (u r c).r
  have h2 := hρ (u r c).i
  have h3 := hsmall r hr c hc
  norm_num at h1 h2 h3 ⊢
  linarith [h3.1, h3.2]

/-- A controlled-not. -/
theorem dblCx {n t c : Nat} (ht : t < n) (hc : c < n) (htc : t ≠ c) (hn : n ≤ NQUBITS) :
    DblGate ρ hρ n (.cx n t c) (.cx n t c) (Spec.permM n (Spec.cnot t c)) := by
  letI := roundW ρ dblTol_nn dblTol_lt
  letI := numW ρ hρ
  exact ⟨.cx n t c, fun h => rfl, rfl, fun h => ⟨ht, hc, htc, hn⟩, fun h q => trivial⟩

/-- A SWAP. -/
theorem dblSwap {n t0 t1 : Nat} (h0 : t0 < n) (h1 : t1 < n) (h01 : t0 ≠ t1) (hn : n ≤ 100) :
    DblGate ρ hρ n (.swap n t0 t1) (.swap n t0 t1) (Spec.permM n (Spec.exch t0 t1)) := by
  letI := roundW ρ dblTol_nn dblTol_lt
  letI := numW ρ hρ
  refine ⟨.swap n t0 t1, fun h => rfl, rfl, fun h => ⟨h0, h1, h01, by unfold NQUBITS; omega⟩, fun h q => ?_⟩
  show 100 * (1 / 2 ^ 41) * ((n : ℝ) + 1) ^ 2 * 184 ≤ 1 / 1000
  have : (n : ℝ) ≤ 100 := by exact_mod_cast hn
  have h : ((n : ℝ) + 1) ^ 2 ≤ 101 ^ 2 := by gcongr; linarith
  norm_num at h ⊢
  linarith

end dbl

/-! ## Hypotheses are met -/

/-- The Hadamard matrix. -/
noncomputable def hadR : Nat → Nat → C ℝ := fun r c => ⟨if r = 1 ∧ c = 1 then -(√2)⁻¹ else (√2)⁻¹, 0⟩

theorem hadR_iso : Isometry 1 hadR := by
  have h2 : (√2)⁻¹ * (√2)⁻¹ = (1 / 2 : ℝ) := by
    rw [← mul_inv, Real.mul_self_sqrt (by norm_num)]; norm_num
  intro j hj k hk
  have e : (2 : Nat) ^ 1 = 2 := rfl
  rw [e] at *
  rw [Finset.sum_range_succ, Finset.sum_range_one]
  interval_cases j <;> interval_cases k <;> apply Cx.ext <;> simp [hadR, conj] <;> nlinarith

theorem hadR_small (r c : Nat) : |(hadR r c).r| ≤ 1 ∧ |(hadR r c).i| ≤ 1 := by
  have h : (√2)⁻¹ ≤ (1 : ℝ) := inv_le_one_of_one_le₀ (by rw [Real.one_le_sqrt]; norm_num)
  have h0 : (0 : ℝ) ≤ (√2)⁻¹ := by positivity
  unfold hadR
  split <;> simp [abs_of_nonneg h0, h]

/-- C57 on a GHZ circuit of 10 qubits in 53-bit arithmetic, truncating: H, then nine controlled-nots. -/
noncomputable def ghz : List (Safe.Call (toZero 52 : Rounding ℝ).Num (FCx (toZero 52) dblTol) × Mat ℝ) :=
  (.gate 10 (fun r c => ⟨(toZero 52).rnd (hadR r c).r, (toZero 52).rnd (hadR r c).i⟩) 0 (Api.ctl []), ⟨10, Spec.gate1 10 hadR 0 []⟩) ::
    (List.range 9).map fun t => (.cx 10 (t + 1) t, Spec.permM 10 (Spec.cnot (t + 1) t))

theorem ghz_ok : ∀ p ∈ ghz, ∃ c', DblGate (toZero 52) toZero_accurate 10 p.1 c' p.2 := by
  intro p hp
  unfold ghz at hp
  rcases List.mem_cons.1 hp with rfl | hp
  · exact ⟨_, dblGate1 _ _ hadR_iso (by decide) (by decide) .nil (by simp) fun r _ c _ => hadR_small r c⟩
  · obtain ⟨t, ht, rfl⟩ := List.mem_map.1 hp
    rw [List.mem_range] at ht
    exact ⟨_, dblCx _ _ (by omega) (by omega) (by omega) (by decide)⟩

theorem ghz_err : circErr ghz = 11 := by
  unfold circErr ghz
  rw [List.map_cons, List.map_map, List.sum_cons]
  rfl

example (env : Env (FCx (toZero 52 : Rounding ℝ) dblTol)) (mt : Bool) :
    √(2 ^ 10) * (1100 * (1 / 2 ^ 41) * (((10 : Nat) : ℝ) + 1) ^ 2) * circErr ghz < 1 ∧
    ∃ σ, @Execs _ _ _ (measOps (toZero 52 : Rounding ℝ) dblTol id) env mt (Safe.Sys.init 5 5) (circ 10 ghz) σ := by
  have h0 : √(2 ^ 10 : ℝ) = 32 := by
    rw [show (2 ^ 10 : ℝ) = 32 ^ 2 by norm_num, Real.sqrt_sq (by norm_num)]
  have hb : √(2 ^ 10) * (1100 * (1 / 2 ^ 41) * (((10 : Nat) : ℝ) + 1) ^ 2) * (circErr ghz : Nat) < 1 := by
    rw [ghz_err, h0]; norm_num
  exact ⟨hb, (C57_double (toZero 52) toZero_accurate id (by decide) (by decide) ghz ghz_ok hb).1⟩

/-- The same circuit followed by a SWAP of its outer qubits: every amplitude is still read out within `10^-3`. -/
example (env : Env (FCx (toZero 52 : Rounding ℝ) dblTol)) (mt : Bool) :
    let gs := ghz ++ [(.swap 10 0 9, Spec.permM 10 (Spec.exch 0 9))]
    √(2 ^ 10) * (1100 * (1 / 2 ^ 41) * (((10 : Nat) : ℝ) + 1) ^ 2) * circErr gs < 1 ∧
    √(2 ^ 10) * (1100 * (1 / 2 ^ 41) * (((10 : Nat) : ℝ) + 1) ^ 2) * (circErr gs + 1) ≤ 1 / 10 ^ 3 ∧
    ∃ σ, @Execs _ _ _ (measOps (toZero 52 : Rounding ℝ) dblTol id) env mt (Safe.Sys.init 5 5) (circ 10 gs) σ := by
  intro gs
  have h0 : √(2 ^ 10 : ℝ) = 32 := by
    rw [show (2 ^ 10 : ℝ) = 32 ^ 2 by norm_num, Real.sqrt_sq (by norm_num)]
  have he : circErr gs = 195 := by
    rw [show circErr gs = circErr ghz + 184 by
      show 1 + ((ghz ++ [_]).map _).sum = 1 + (ghz.map _).sum + 184
      rw [List.map_append, List.sum_append, Nat.add_assoc]
      rfl, ghz_err]
  have hb : √(2 ^ 10) * (1100 * (1 / 2 ^ 41) * (((10 : Nat) : ℝ) + 1) ^ 2) * (circErr gs : Nat) < 1 := by
    rw [he, h0]; norm_num
  refine ⟨hb, by rw [he, h0]; norm_num, (C57_double (toZero 52) toZero_accurate id (by decide) (by decide) gs ?_ hb).1⟩
  intro p hp
  rcases List.mem_append.1 hp with hp | hp
  · exact ghz_ok p hp
  · rw [List.mem_singleton] at hp
    subst hp
    exact ⟨_, dblSwap _ _ (by decide) (by decide) (by decide) (by decide)⟩

/-- A history with a product of matrices, in 53-bit arithmetic: two controlled-nots multiplied, the product applied to the
all-zero state of two qubits, which is then read out within `10^-4`. -/
example (env : Env (FCx (toZero 52 : Rounding ℝ) dblTol)) (mt : Bool) :
    letI := measOps (toZero 52 : Rounding ℝ) dblTol id
    letI := roundW (toZero 52 : Rounding ℝ) dblTol_nn dblTol_lt
    letI := numW (toZero 52 : Rounding ℝ) toZero_accurate
    ∃ h q σ, Run (R := (toZero 52 : Rounding ℝ).Num) env mt 5 5 [.zero 2, .cx 2 0 1, .cx 2 1 0, .mmul 0 1, .mv 2 0] h q σ ∧ h.vs.length = 2 ∧
      √(2 ^ 2) * (1100 * (1 / 2 ^ 41) * (((2 : Nat) : ℝ) + 1) ^ 2) * (q.vs.getD 1 0 + 1) ≤ 1 / 10 ^ 4 := by
  letI := measOps (toZero 52 : Rounding ℝ) dblTol id
  letI := roundW (toZero 52 : Rounding ℝ) dblTol_nn dblTol_lt
  letI := numW (toZero 52 : Rounding ℝ) toZero_accurate
  have h0 : √(2 ^ 2 : ℝ) = 2 := by rw [Real.sqrt_sq (by norm_num)]
  have hk : kap (FCx (toZero 52 : Rounding ℝ) dblTol) 2 = √(2 ^ 2) * (1100 * (1 / 2 ^ 41) * (((2 : Nat) : ℝ) + 1) ^ 2) := rfl
  have s0 := Run.init (R := (toZero 52 : Rounding ℝ).Num) (env := env) (mt := mt) (thr := 5) (thrM := 5)
  obtain ⟨_, _, o1, σ1, _, s1⟩ := C57_call_total s0 (.zero 2) (show Spec.pre NQUBITS _ (.zero 2) from ⟨by decide, by decide⟩) trivial rfl
  obtain ⟨_, _, o2, σ2, _, s2⟩ := C57_call_total s1 (.cx 2 0 1) (show Spec.pre NQUBITS _ (.cx 2 0 1) from ⟨by decide, by decide, by decide, by decide⟩) trivial rfl
  obtain ⟨_, _, o3, σ3, _, s3⟩ := C57_call_total s2 (.cx 2 1 0) (show Spec.pre NQUBITS _ (.cx 2 1 0) from ⟨by decide, by decide, by decide, by decide⟩) trivial rfl
  obtain ⟨_, _, o4, σ4, _, s4⟩ := C57_call_total s3 (.mmul 0 1) (show Spec.pre NQUBITS _ (.mmul 0 1) from ⟨_, _, rfl, rfl⟩) (by
    intro A B hA hB
    cases hA; cases hB
    refine ⟨rfl, ?_⟩
    show 100 * (1 / 2 ^ 41) * (((2 : Nat) : ℝ) + 1) ^ 2 * ((32 : Nat) : ℝ) ≤ 1 / 1000
    norm_num) rfl
  obtain ⟨_, _, o5, σ5, _, s5⟩ := C57_call_total s4 (.mv 2 0) (show Spec.pre NQUBITS _ (.mv 2 0) from ⟨_, _, rfl, rfl, le_refl _⟩) (by
    intro M V hM hV
    cases hM; cases hV
    refine ⟨rfl, ?_⟩
    show kap (FCx (toZero 52 : Rounding ℝ) dblTol) 2 * ((1 : Nat) : ℝ) ≤ 1
    rw [hk, h0]
    norm_num) rfl
  refine ⟨_, _, σ5, s5, rfl, ?_⟩
  show √(2 ^ 2) * (1100 * (1 / 2 ^ 41) * (((2 : Nat) : ℝ) + 1) ^ 2) * (((33 : Nat) : ℝ) + 1) ≤ _
  rw [h0]
  norm_num

end QDD.Props
