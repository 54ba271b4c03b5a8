import Verif.Props.OpenCtrl
import Verif.Props.Jobs
import Verif.Props.Merge
/-!
# Jobs of any circuits: counts, probabilities, state vectors (C52)
-/

set_option linter.unusedSectionVars false
set_option linter.unusedVariables false
set_option linter.unusedSimpArgs false

namespace QDD.Props
open Spec Api Gate Finset Py Py.Client

variable {cfg : Cfg ℝ} {thr thrM : Nat} {cs : List (Cmd ℝ)} {h : Heap ℝ} {σ : Sys ℝ} {os : List (Obs ℝ)}

/-- A circuit the backend can run: instructions as Qiskit allows them (any control states and conditions), at least one
measurement, no `UnitaryGate` or unknown instruction; moving its `QDDGate`s to the lowest qubits, if they are not there, does not change
the classification. -/
structure CanRun (ms : List (Mat ℝ)) (c : Circ) : Prop where
  pos : 0 < c.nq
  lim : c.nq ≤ NQUBITS
  wf : ∀ x ∈ c.data, x.WF c.nq c.nc
  runs : ∀ x ∈ c.data, Op.Runs c.nq ms x.op
  place : classify (moved c) = classify c
  measured : ∃ x ∈ c.data, x.op = .measure

theorem CanRun.meas {ms : List (Mat ℝ)} {c : Circ} (hc : CanRun ms c) : (propLoop c.data ⟨true, [], []⟩).measured ≠ [] := by
  intro h0
  obtain ⟨x, hx, hop⟩ := hc.measured
  refine (measured_iff ?_).1 h0 x hx hop
  intro y hy hop' h'
  have := (hc.wf y hy).arity
  rw [hop', h'] at this
  simp [Op.arity] at this

theorem CanRun.supported {ms : List (Mat ℝ)} {c : Circ} (hc : CanRun ms c) : Supported ms (asRun c) :=
  asRun_supported hc.pos hc.lim hc.wf hc.runs

/-- Shots that are accepted, and how many they are. -/
def ShotsAre (s : Shots) (N : Nat) : Prop := (s = .absent ∧ N = 1024) ∨ (s = .int N ∧ 0 < N ∧ N ≤ 10 ^ 6)

theorem ShotsAre.valid {s : Shots} {N : Nat} (hN : ShotsAre s N) : s.valid ∧ s.value = some (some N) ∧ 0 < N := by
  rcases hN with ⟨h, h1⟩ | ⟨h, h1, h2⟩ <;> rw [h]
  · exact ⟨trivial, by rw [h1]; rfl, by omega⟩
  · exact ⟨⟨by omega, by unfold maxShots; omega⟩, by simp [Shots.value], h1⟩

/-- One circuit of a job, on the engine's heap. -/
theorem canRun_meets {sqrt : ℝ → ℝ} (hsq : ∀ x, 0 ≤ x → sqrt x * sqrt x = x) {ms : List (Mat ℝ)} {c rc : Circ} (hc : CanRun ms c)
    (hr : ReadAs c rc) {keys : List (List Bool)} (hk : keys ≠ []) {o : Opts} (hs : o.shots = some keys.length)
    (hsv : o.saveSV = true → c.nq ≤ 30) {h : Heap ℝ} (hh : Has ms h) :
    Meets sqrt (run c o) h (Memory keys) ((keys.map rc.prob).prod) := by
  have hcl := (classify_asRun c).trans hc.place
  have := run_meets (c := asRun c) hsq hc.supported (by
    intro hst y hy hop
    rw [show propLoop (asRun c).data ⟨true, [], []⟩ = _ from hcl] at hst
    obtain ⟨x, hx, rfl⟩ := List.mem_map.1 hy
    obtain ⟨op, qargs, cargs, cond⟩ := x
    rw [hst]
    cases op <;> simp [asRunI, closeOp] at hop ⊢) (o := o) (keys := keys) hs hk
    (.inr (by rw [show propLoop (asRun c).data ⟨true, [], []⟩ = _ from hcl]; exact hc.meas)) hsv hh
  rw [run_asRun c hc.place (fun x hx => (hc.wf x hx).cond) (by rw [hs])] at this
  refine cast ?_ this
  congr 2
  exact List.map_congr_left fun k _ => ReadAs.prob (asRun_reads hc.wf) hr k

/-- **C52, all circuits.**  After any history, an accepted job of any circuits the backend can run succeeds with one
result per circuit bound to parameters; the memories are jointly distributed as independent executions of the circuits
*as the backend reads them* (`ReadAs`).  So for batches, too, the deviations of C35, C36, C40 and C56 are the only ones. -/
theorem C52_actual (hR : Hist cfg thr thrM cs h σ os) (hsq : ∀ x, 0 ≤ x → cfg.sqrt x * cfg.sqrt x = x)
    {ps : List PCirc} {o : RunOpts} {N : Nat} (hN : ShotsAre o.shots N)
    {bcs : List Circ} (hb : bound ps o.binds = some bcs) (hc : ∀ c ∈ bcs, CanRun h.ms c)
    (hsv : o.saveSV = true → ∀ c ∈ bcs, c.nq ≤ 30) {rcs : List Circ} (hr : List.Forall₂ ReadAs bcs rcs)
    {keyss : List (List (List Bool))} (hk : keyss.length = bcs.length) (hkl : ∀ keys ∈ keyss, keys.length = N) :
    Yields cfg (runJob ps o) σ (Succeeded (keyss.map Memory)) ((List.zipWith (fun c keys => (keys.map c.prob).prod) rcs keyss).prod) := by
  obtain ⟨hv, hval, hN0⟩ := hN.valid
  have hrl := hr.length_eq
  rw [← finished_succeeded]
  refine Meets.yields hR (runJob_meets (ms := h.ms) hv hval hb (fun c hcc => ⟨(hc c hcc).lim, .inr (hc c hcc).meas⟩) _ _
    (by simp [hk]) (by simp; omega) ?_ h ⟨[], by simp⟩)
  intro i h1 h2 h3
  have hi : i < keyss.length := by simpa using h2
  have hmem := List.getElem_mem h1
  simp only [List.getElem_map, List.getElem_zipWith]
  refine ⟨(by rintro ⟨_, h, _⟩; cases h), fun h' hh' => ?_⟩
  have hl := hkl _ (List.getElem_mem hi)
  exact canRun_meets hsq (hc _ hmem) (List.Forall₂.get hr h1 (by omega)) (by intro h0; rw [h0] at hl; simp at hl; omega)
    (by rw [hl]) (fun hs => hsv hs _ hmem) hh'

/-- **C52, without shots.**  A job of unconditional circuits classified as stable on at most 30 qubits succeeds; each
result holds the probabilities of measuring every qubit `q` of its circuit into clbit `q`, controls closed. -/
theorem C52_probabilities (hR : Hist cfg thr thrM cs h σ os) {ps : List PCirc} {o : RunOpts} (hs : o.shots = .none)
    {bcs : List Circ} (hb : bound ps o.binds = some bcs) (hc : ∀ c ∈ bcs, CanRun h.ms c) (h30 : ∀ c ∈ bcs, c.nq ≤ 30)
    (hst : ∀ c ∈ bcs, (classify c).stable = true) (hcd : ∀ c ∈ bcs, ∀ x ∈ c.data, x.cond = none) :
    Yields cfg (runJob ps o) σ (Succeeded (bcs.map fun c => Probs (outcomes (measuredAll (closed c))))) 1 := by
  rw [← finished_succeeded]
  have := Meets.yields hR (runJob_meets (sqrt := cfg.sqrt) (ms := h.ms) (ps := ps) (o := o) (sh := none) (by rw [hs]; trivial)
    (by rw [hs]; rfl) hb (fun c hcc => ⟨(hc c hcc).lim, .inr (hc c hcc).meas⟩)
    (bcs.map fun c => Probs (outcomes (measuredAll (closed c)))) (bcs.map fun _ => 1) (by simp) (by simp) (by
      intro i h1 h2 h3
      have hmem := List.getElem_mem h1
      simp only [List.getElem_map]
      refine ⟨(by rintro ⟨_, h, _⟩; cases h), fun h' hh' => ?_⟩
      have hsup := (hc _ hmem).supported
      have hcl := (classify_asRun bcs[i]).trans (hc _ hmem).place
      rw [asRun_uncond (hcd _ hmem)] at hsup hcl
      rw [← run_closed bcs[i] (hc _ hmem).place (hcd _ hmem), run_some hsup.lim (.inr (by
        rw [show propLoop (closed bcs[i]).data ⟨true, [], []⟩ = _ from hcl]; exact (hc _ hmem).meas))]
      have hst' : (classify (closed bcs[i])).stable = true := by rw [hcl]; exact hst _ hmem
      have hcd' : ∀ x ∈ (closed bcs[i]).data, x.cond = none := by
        intro y hy
        obtain ⟨x, hx, rfl⟩ := List.mem_map.1 hy
        exact hcd _ hmem x hx
      have := probs_stable_meets (sqrt := cfg.sqrt) hsup (h30 bcs[i] hmem) rfl hst' hcd' (o := ⟨none, o.saveSV⟩) rfl hh'
      refine cast ?_ this
      congr 2
      exact List.map_congr_left fun j hj => (measuredAll_prob hsup hst' hcd' (List.mem_range.1 hj)).symm) h ⟨[], by simp⟩)
  refine cast (congrArg _ ?_) this
  simp

/-- **C52, state vectors.**  With the state vector saved, a job of circuits classified as stable on at most 30 qubits
succeeds; each result holds the amplitudes of the gates of its circuit, controls closed, applied to |0…0⟩, times the
global phase, whatever is drawn. -/
theorem C52_statevectors (hR : Hist cfg thr thrM cs h σ os) {ps : List PCirc} {o : RunOpts} {N : Nat} (hN : ShotsAre o.shots N)
    (hsv : o.saveSV = true) {bcs : List Circ} (hb : bound ps o.binds = some bcs) (hc : ∀ c ∈ bcs, CanRun h.ms c)
    (h30 : ∀ c ∈ bcs, c.nq ≤ 30) (hst : ∀ c ∈ bcs, (classify c).stable = true) :
    Yields cfg (runJob ps o) σ (Succeeded (bcs.map fun c => StateVector ((List.range (2 ^ c.nq)).map fun i =>
      evol c.nq (closed c).data zeroState i * ⟨Real.cos c.phase, Real.sin c.phase⟩))) 1 := by
  obtain ⟨hv, hval, hN0⟩ := hN.valid
  rw [← finished_succeeded]
  have := Meets.yields hR (runJob_meets (sqrt := cfg.sqrt) (ms := h.ms) (ps := ps) (o := o) (sh := some N) hv
    hval hb (fun c hcc => ⟨(hc c hcc).lim, .inr (hc c hcc).meas⟩)
    (bcs.map fun c => StateVector ((List.range (2 ^ c.nq)).map fun i =>
      evol c.nq (closed c).data zeroState i * ⟨Real.cos c.phase, Real.sin c.phase⟩)) (bcs.map fun _ => 1) (by simp) (by simp) (by
      intro i h1 h2 h3
      have hmem := List.getElem_mem h1
      simp only [List.getElem_map]
      refine ⟨(by rintro ⟨_, h, _⟩; cases h), fun h' hh' => ?_⟩
      have hcl := (classify_asRun bcs[i]).trans (hc _ hmem).place
      have := statevector_meets (sqrt := cfg.sqrt) (hc _ hmem).supported (h30 bcs[i] hmem)
        (by rw [show propLoop (asRun bcs[i]).data ⟨true, [], []⟩ = _ from hcl]; exact hst _ hmem)
        (o := ⟨some N, o.saveSV⟩) hsv (by intro h; cases h) hh'
      rw [run_asRun bcs[i] (hc _ hmem).place (fun x hx => ((hc _ hmem).wf x hx).cond) rfl] at this
      refine cast ?_ this
      congr 2
      refine List.map_congr_left fun j hj => ?_
      show evol _ (bcs[i].data.map _) zeroState j * _ = _
      rw [evol_asRun]
      rfl) h ⟨[], by simp⟩)
  refine cast (congrArg _ ?_) this
  simp

/-! ### Cases -/

theorem openCtrl_canRun (ms : List (Mat ℝ)) : CanRun ms openCtrl where
  pos := by decide
  lim := by decide
  wf := by
    intro x hx
    simp only [openCtrl, List.mem_cons, List.mem_nil_iff, or_false] at hx
    rcases hx with rfl | rfl
    · exact { distinct := by simp, qubits := by simp [openCtrl], clbits := by simp, arity := ⟨rfl, by simp [GName.mat1]⟩, cond := by simp }
    · exact (mI_fine (ms := ms) (by decide) (by decide) (by simp)).toWF
  runs := by
    intro x hx
    simp only [openCtrl, List.mem_cons, List.mem_nil_iff, or_false] at hx
    rcases hx with rfl | rfl <;> trivial
  place := rfl
  measured := ⟨mI 1 0, by simp [openCtrl], rfl⟩

theorem offsetReg_canRun (ms : List (Mat ℝ)) : CanRun ms offsetReg where
  pos := by decide
  lim := by decide
  wf := offsetReg_wf
  runs := by
    intro x hx
    simp only [offsetReg, List.mem_cons, List.mem_nil_iff, or_false] at hx
    rcases hx with rfl | rfl | rfl | rfl <;> trivial
  place := rfl
  measured := ⟨mI 0 0, by simp [offsetReg], rfl⟩

/-- A job of two circuits the backend misreads. -/
example (hR : Hist cfg thr thrM cs h σ os) (hsq : ∀ x, 0 ≤ x → cfg.sqrt x * cfg.sqrt x = x) (k1 k2 : List Bool) :
    Yields cfg (runJob [⟨[], fun _ => openCtrl⟩, ⟨[], fun _ => offsetReg⟩] ⟨.int 1, none, [], false, none⟩) σ
      (Succeeded [Memory [k1], Memory [k2]]) (openCtrl'.prob k1 * 1 * (offsetReg'.prob k2 * 1 * 1)) :=
  C52_actual hR hsq (N := 1) (.inr ⟨rfl, by norm_num, by norm_num⟩) (bcs := [openCtrl, offsetReg]) (by simp [bound, assign])
    (by
      intro c hc
      simp only [List.mem_cons, List.mem_nil_iff, or_false] at hc
      rcases hc with rfl | rfl
      · exact openCtrl_canRun _
      · exact offsetReg_canRun _) (by simp)
    (.cons readings.2.2 (.cons readings.2.1 .nil)) (keyss := [[k1], [k2]]) rfl (by simp)

/-- A merged gate on qubit 1 is run on qubit 0 (`C40_misplaced`). -/
example (hR : Hist cfg thr thrM cs h σ os) (hsq : ∀ x, 0 ≤ x → cfg.sqrt x * cfg.sqrt x = x) {hd : Nat}
    (hm : h.ms[hd]? = some ⟨1, opMat plainX⟩) (k : List Bool) :
    Yields cfg (run (misplaced hd) ⟨some 1, false⟩) σ (Memory [k])
      ((⟨2, 1, 0, [⟨.qdd hd 1 (opMat plainX), [0], [], none⟩, mI 0 0]⟩ : Circ).prob k * 1) := by
  have hw : ∀ x ∈ (misplaced hd).data, x.WF 2 1 := by
    intro x hx
    simp only [misplaced, List.mem_cons, List.mem_nil_iff, or_false] at hx
    rcases hx with rfl | rfl
    · exact { distinct := by simp, qubits := by simp, clbits := by simp, arity := ⟨rfl, rfl⟩, cond := by simp }
    · exact (mI_fine (ms := h.ms) (by decide) (by decide) (by simp)).toWF
  have hr : ∀ x ∈ (misplaced hd).data, Op.Runs 2 h.ms x.op := by
    intro x hx
    simp only [misplaced, List.mem_cons, List.mem_nil_iff, or_false] at hx
    rcases hx with rfl | rfl
    · exact ⟨rfl, by decide, ⟨_, hm, fun _ _ _ _ => rfl⟩, opMat_isometry plainX_gates⟩
    · trivial
  have hcl : classify (moved (misplaced hd)) = classify (misplaced hd) := rfl
  have hread : ReadAs (misplaced hd) ⟨2, 1, 0, [⟨.qdd hd 1 (opMat plainX), [0], [], none⟩, mI 0 0]⟩ :=
    ⟨rfl, rfl, rfl, .cons ⟨rfl, rfl, rfl, by rw [if_neg (by rintro ⟨_, h⟩; cases h)]; rfl⟩ (.cons (unchanged_as rfl rfl rfl) .nil)⟩
  have hmd : Measured (misplaced hd) ⟨some 1, false⟩ := .inr (by
    show (propLoop _ _).measured ≠ []
    simp [misplaced, propLoop, propStep, destabilises, mI])
  have := (C54_actual hR hsq (c := misplaced hd) (show 0 < 2 by decide) (show 2 ≤ NQUBITS by decide) hw hr hcl).2 _ hread hmd
    (by intro h; cases h) (keys := [k]) (by simp) rfl
  simpa using this

end QDD.Props
