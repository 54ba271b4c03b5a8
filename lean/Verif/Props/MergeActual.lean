import Verif.Props.Actual
import Verif.Props.Merge
/-!
# C40: what merging any circuit gives
-/

set_option linter.unusedSectionVars false
set_option linter.unusedVariables false
set_option linter.unusedSimpArgs false

namespace QDD.Props
open Spec Api Gate Finset Py Client

variable {cfg : Cfg ℝ} {thr thrM : Nat} {cs : List (Cmd ℝ)} {h : Heap ℝ} {σ : Sys ℝ} {os : List (Obs ℝ)}

/-- An instruction as `merge_circuit` reads it: conditions are ignored, controls are closed; measurements and resets are
skipped. -/
def mergedI (x : Inst) : Inst :=
  match x.op with
  | .gate g ctl => ⟨.gate g (ctl.map fun _ => true), x.qargs, [], none⟩
  | _ => ⟨.barrier, x.qargs, [], none⟩

/-- A circuit as `merge_circuit` reads it. -/
def mergedAs (c : Circ) : Circ := { c with data := c.data.map mergedI }

/-- Named gates, barriers, measurements and resets. -/
def Mergeable : Op → Prop
  | .gate _ _ | .barrier | .measure | .reset => True
  | _ => False

theorem mergedI_fine {n nc : Nat} {ms : List (Mat ℝ)} {x : Inst} (hx : x.WF n nc) : Fine n nc ms (mergedI x) := by
  obtain ⟨op, qargs, cargs, cond⟩ := x
  have hd := hx.distinct
  have hq := hx.qubits
  have ha := hx.arity
  cases op <;>
    refine ⟨⟨hd, hq, (by intro c hc; cases hc), ?_, (by intro c hc; cases hc)⟩, ?_, (by intro c hc; cases hc)⟩ <;>
    first
    | exact rfl
    | exact trivial
    | (refine ⟨rfl, ?_⟩; simpa [mergedI] using ha.2)
    | (intro b hb; simp [mergedI] at hb; exact hb.2)

theorem mergedAs_gates {c : Circ} (hpos : 0 < c.nq) (hlim : c.nq ≤ NQUBITS) (hw : ∀ x ∈ c.data, x.WF c.nq c.nc) : GateCirc (mergedAs c) where
  pos := hpos
  lim := hlim
  fine := by
    intro y hy
    obtain ⟨x, hx, rfl⟩ := List.mem_map.1 hy
    exact mergedI_fine (hw x hx)
  gates := by
    intro y hy
    obtain ⟨x, hx, rfl⟩ := List.mem_map.1 hy
    obtain ⟨op, qargs, cargs, cond⟩ := x
    cases op <;> simp [mergedI]

variable {sqrt : ℝ → ℝ} {α : Type} {T : Option α → Prop}

theorem mergeLoopAs_meets {c : Circ} (hc : GateCirc (mergedAs c)) {freq : Nat} (hf : 0 < freq) : ∀ (xs : List Inst), (∀ x ∈ xs, x ∈ c.data) →
    (∀ x ∈ xs, x.WF c.nq c.nc) → (∀ x ∈ xs, Mergeable x.op) →
    ∀ {count cur : Nat} {h : Heap ℝ} {F : Nat → Nat → CR} {k : Nat → Client α} {v : ℝ}, Holds c.nq h cur F →
    (∀ h' cur', h'.vs = h.vs → Holds c.nq h' cur' (fun i j => evol c.nq (xs.map mergedI) (fun m => F m j) i) →
      Meets sqrt (k cur') h' T v) → Meets sqrt (mergeLoop c.nq freq xs count cur k) h T v := by
  intro xs
  induction xs with
  | nil => intro _ _ _ count cur h F k v hh hk; exact hk _ _ rfl hh
  | cons x xs ih =>
    intro hsub hw hm count cur h F k v hh hk
    have ih := @ih (fun y hy => hsub y (by simp [hy])) (fun y hy => hw y (by simp [hy])) (fun y hy => hm y (by simp [hy]))
    have hmx := hm x (by simp)
    have hwx := hw x (by simp)
    have hin : mergedI x ∈ (mergedAs c).data := List.mem_map.2 ⟨x, hsub x (by simp), rfl⟩
    have e : ∀ f, evol c.nq (xs.map mergedI) (evol c.nq [mergedI x] f) = evol c.nq ((x :: xs).map mergedI) f := by
      intro f
      rw [List.map_cons]
      cases hA : (mergedI x).oper c.nq with
      | none => simp only [evol, hA]
      | some A => simp only [evol, hA]
    have hgo : ∀ h' count' cur', h'.vs = h.vs → Holds c.nq h' cur' (fun i j => evol c.nq [mergedI x] (fun m => F m j) i) →
        Meets sqrt (mergeLoop c.nq freq xs count' cur' k) h' T v := by
      intro h' count' cur' hv hh'
      refine ih hh' fun h'' cur'' hv' hh'' => hk _ _ (hv'.trans hv) ?_
      have : (fun i j => evol c.nq (xs.map mergedI) (fun m => evol c.nq [mergedI x] (fun m => F m j) m) i) =
          fun i j => evol c.nq ((x :: xs).map mergedI) (fun m => F m j) i := by
        funext i j
        exact congrFun (e _) i
      rwa [this] at hh''
    unfold mergeLoop
    have hst := mergeStep_meets (sqrt := sqrt) (T := T) (v := v) (count := count) hc hf hin (k := fun count cur => mergeLoop c.nq freq xs count cur k) hh hgo
    obtain ⟨op, qargs, cargs, cond⟩ := x
    cases op with
    | gate g ctl =>
      have hca : cargs = [] := hwx.arity.1
      subst hca
      exact hst
    | barrier => exact hst
    | measure => exact hst
    | reset =>
      have hca : cargs = [] := hwx.arity.2
      subst hca
      exact next_meets (k := fun count cur => mergeLoop c.nq freq xs count cur k) hf hh hgo
    | unitary => cases hmx
    | qdd => cases hmx
    | other => cases hmx

/-- The merged gate is the matrix of the circuit as `merge_circuit` reads it. -/
theorem mergeAs_meets {c : Circ} (hc : GateCirc (mergedAs c)) (hw : ∀ x ∈ c.data, x.WF c.nq c.nc) (hm : ∀ x ∈ c.data, Mergeable x.op)
    {freq : Nat} (hf : 0 < freq) {h : Heap ℝ} {k : Nat → Client α} {v : ℝ}
    (hk : ∀ h' hd, h'.vs = h.vs → Holds c.nq h' hd (opMat (mergedAs c)) → Meets sqrt (k hd) h' T v) :
    Meets sqrt (merge c freq k) h T v := by
  unfold merge
  refine Meets.call (h1 := h.addM ⟨c.nq, Spec.gate1 c.nq Imat 0 []⟩) (o := .unit)
    ⟨hc.pos, hc.lim, List.Pairwise.nil, by intro c hc; cases hc⟩ rfl ?_
  refine mergeLoopAs_meets hc hf c.data (fun _ h => h) hw hm (F := fun i j => ket j i) ⟨⟨_, ?_, fun i hi j hj => gate_I hc.pos hi hj⟩⟩ ?_
  · unfold Heap.addM
    rw [List.length_append, List.length_singleton, Nat.add_sub_cancel]
    simp
    rfl
  · intro h' cur' hv hh
    obtain ⟨F', hF, hFF⟩ := hh.ex
    refine Meets.call (h1 := h'.addM ((⟨c.nq, F'⟩ : Mat ℝ).scale ⟨Real.cos c.phase, Real.sin c.phase⟩)) (o := .unit) ⟨_, hF⟩ ?_ ?_
    · simp only [Spec.step, hF, Option.bind_eq_bind, Option.bind_some]
    · refine hk _ _ hv ⟨⟨fun i j => F' i j * ⟨Real.cos c.phase, Real.sin c.phase⟩, ?_, ?_⟩⟩
      · unfold Heap.addM
        rw [List.length_append, List.length_singleton, Nat.add_sub_cancel]
        simp [Mat.scale]
      · intro i hi j hj
        dsimp only
        rw [hFF i hi j hj]
        rfl

/-- **C40, any circuit (matrix).**  Merging a circuit of named gates with any control states and conditions, of barriers,
measurements and resets, gives the matrix of its gates alone: all controls closed, all conditions ignored, nothing measured
or reset. -/
theorem C40_matrix_actual (hR : Hist cfg thr thrM cs h σ os) {c : Circ} (hpos : 0 < c.nq) (h30 : c.nq ≤ 30)
    (hw : ∀ x ∈ c.data, x.WF c.nq c.nc) (hm : ∀ x ∈ c.data, Mergeable x.op) {freq : Nat}
    (hf : 0 < freq) : Yields cfg (mergeThenRead c freq) σ
      (fun r => r = some (.mat ((List.range (2 ^ c.nq)).map fun i => (List.range (2 ^ c.nq)).map fun j =>
        some (evol c.nq (mergedAs c).data (fun l => if l = j then 1 else 0) i * ⟨Real.cos c.phase, Real.sin c.phase⟩)))) 1 := by
  have hc := mergedAs_gates hpos (le_trans h30 (by decide)) hw
  refine Meets.yields hR (mergeAs_meets hc hw hm hf fun h' hd _ hh => ?_)
  obtain ⟨F', hF, hFF⟩ := hh.ex
  refine Meets.call (h1 := h') ⟨_, hF, le_rfl, h30⟩ (by
    simp only [Spec.step, hF, Option.bind_eq_bind, Option.bind_some]; rfl) ?_
  refine ⟨trivial, trivial, ?_⟩
  show prob _ (.ret _) _ _ = _
  rw [prob, if_pos]
  congr 2
  refine List.map_congr_left fun i hi => List.map_congr_left fun j hj => ?_
  rw [show (⟨c.nq, F'⟩ : Mat ℝ).at c.nq i j = F' i j from at_self ⟨c.nq, F'⟩ (List.mem_range.1 hi) (List.mem_range.1 hj),
    hFF i (List.mem_range.1 hi) j (List.mem_range.1 hj)]
  rfl

/-- **C40, any circuit.**  Merging it and running a circuit that uses the merged gate on its lowest qubits gives every
memory with the probability of the circuit in which its gates stand, all controls closed and unconditional. -/
theorem C40_actual (hR : Hist cfg thr thrM cs h σ os) (hsq : ∀ x, 0 ≤ x → cfg.sqrt x * cfg.sqrt x = x) {c1 : Circ}
    (hpos : 0 < c1.nq) (hw : ∀ x ∈ c1.data, x.WF c1.nq c1.nc) (hmg : ∀ x ∈ c1.data, Mergeable x.op)
    {freq : Nat} (hf : 0 < freq) {nq nc : Nat} {phase : ℝ} {pre post : List Inst} (hn : c1.nq ≤ nq)
    (hlim : nq ≤ NQUBITS) (hfine : ∀ x ∈ pre ++ post, Fine nq nc [] x)
    (hm : ∀ x ∈ pre ++ post, x.op = .measure → x.cond = none)
    {o : Opts} (hmd : ∀ hd, Measured (withMerged (mergedAs c1) nq nc phase pre post hd) o) (hsv : o.saveSV = true → nq ≤ 30)
    {keys : List (List Bool)} (h0 : keys ≠ []) (hs : o.shots = some keys.length) :
    Yields cfg (merge c1 freq fun hd => run (withMerged (mergedAs c1) nq nc phase pre post hd) o) σ (Memory keys)
      ((keys.map (inlined (mergedAs c1) nq nc phase pre post).prob).prod) := by
  have hc := mergedAs_gates hpos (hn.trans hlim) hw
  exact Meets.yields hR (mergeAs_meets hc hw hmg hf fun h' hd _ hh =>
    merged_meets hsq hc hh hn hlim hfine hm hmd hsv h0 hs)

/-- `x(0)` if clbit 0 is 1, `cx(0, 1, ctrl_state=0)`, a measurement and a reset. -/
def roughC : Circ := ⟨2, 1, 0, [xI 0 (some (.bit 0 1)), ⟨.gate .CX [false], [0, 1], [], none⟩, mI 1 0, ⟨.reset, [0], [], none⟩]⟩

theorem roughC_wf : ∀ x ∈ roughC.data, x.WF 2 1 := by
  intro x hx
  simp only [roughC, List.mem_cons, List.mem_nil_iff, or_false] at hx
  rcases hx with rfl | rfl | rfl | rfl
  · exact ⟨by simp [xI], by simp [xI], by simp [xI], ⟨rfl, rfl⟩, by intro c hc; cases hc; exact ⟨by decide, by decide⟩⟩
  · exact ⟨by simp, by simp, by simp, ⟨rfl, rfl⟩, by intro c hc; cases hc⟩
  · exact ⟨by simp [mI], by simp [mI], by simp [mI], ⟨rfl, rfl⟩, by intro c hc; cases hc⟩
  · exact ⟨by simp, by simp, by simp, ⟨rfl, rfl⟩, by intro c hc; cases hc⟩

/-- Merged, this is `x(0)` and `cx(0, 1)` with a closed control. -/
example : (mergedAs roughC).data.filter (fun x => x.op matches .gate _ _) = [xI 0, ⟨.gate .CX [true], [0, 1], [], none⟩] := rfl

example (hR : Hist cfg thr thrM cs h σ os) := C40_matrix_actual hR (c := roughC) (by decide) (by decide) roughC_wf (by
  intro x hx
  simp only [roughC, List.mem_cons, List.mem_nil_iff, or_false] at hx
  rcases hx with rfl | rfl | rfl | rfl <;> trivial) (freq := 20) (by decide)

end QDD.Props
