import Verif.Props.Backend
import Verif.Py.Merge
/-!
# C40: merged circuits
-/

set_option linter.unusedSectionVars false
set_option linter.unusedVariables false
set_option linter.unusedSimpArgs false

namespace QDD.Props
open Spec Api Finset Py Client

variable {cfg : Cfg ℝ} {thr thrM : Nat} {cs : List (Cmd ℝ)} {h : Heap ℝ} {σ : Sys ℝ} {os : List (Obs ℝ)}

/-- `getMatrix` of the merged gate. -/
noncomputable def mergeThenRead (c : Circ) (freq : Nat) : Client (Obs ℝ) :=
  merge c freq fun hd => .call (.getMatrix hd c.nq) fun o _ _ => .ret o

/-- **C40.** The matrix of a merged circuit of gates: column `j` is the circuit applied to the basis state `j`, times the
global phase.  For every frequency of garbage collections.  Merged gates inside: `C40_nested_matrix_partial`.
Missing: `UnitaryGate`s (raise an exception), conditions (ignored: `C40_false`). -/
theorem C40_matrix_partial (hR : Hist cfg thr thrM cs h σ os) {c : Circ} (hc : GateCirc c) (h30 : c.nq ≤ 30) {freq : Nat}
    (hf : 0 < freq) : Yields cfg (mergeThenRead c freq) σ
      (fun r => r = some (.mat ((List.range (2 ^ c.nq)).map fun i => (List.range (2 ^ c.nq)).map fun j =>
        some (evol c.nq c.data (fun l => if l = j then 1 else 0) i * ⟨Real.cos c.phase, Real.sin c.phase⟩)))) 1 := by
  refine Meets.yields hR (merge_meets hc hf fun h' hd _ hh => ?_)
  obtain ⟨F', hF, hFF⟩ := hh.ex
  refine Meets.call (h1 := h') ⟨_, hF, le_rfl, h30⟩ (by
    simp only [Spec.step, hF, Option.bind_eq_bind, Option.bind_some]; rfl) ?_
  refine ⟨trivial, trivial, ?_⟩
  show prob _ (.ret _) _ _ = _
  rw [prob, if_pos]
  congr 2
  refine List.map_congr_left fun i hi => List.map_congr_left fun j hj => ?_
  rw [show (⟨c.nq, F'⟩ : Mat ℝ).at c.nq i j = F' i j from at_self ⟨c.nq, F'⟩ (List.mem_range.1 hi) (List.mem_range.1 hj),
    hFF i (List.mem_range.1 hi) j (List.mem_range.1 hj)]
  rfl

/-- A circuit with the merged gate `hd` of `c1` on its lowest qubits between `pre` and `post`. -/
noncomputable def withMerged (c1 : Circ) (nq nc : Nat) (phase : ℝ) (pre post : List Inst) (hd : Nat) : Circ :=
  ⟨nq, nc, phase, pre ++ mergedInst c1 hd :: post⟩

/-- The same circuit with the gates of `c1` in its place. -/
def inlined (c1 : Circ) (nq nc : Nat) (phase : ℝ) (pre post : List Inst) : Circ := ⟨nq, nc, phase, pre ++ (c1.data ++ post)⟩

theorem Fine.weaken {n nc : Nat} {x : Inst} (hx : Fine n nc [] x) (ms : List (Mat ℝ)) : Fine n nc ms x where
  toWF := hx.toWF
  aligned := hx.aligned
  op := by
    have := hx.op
    rcases hop : x.op with ⟨g, ctl⟩ | _ | ⟨hd, k, M⟩ | _ | _ | _ | _ <;> rw [hop] at this <;> try exact this
    obtain ⟨_, _, ⟨M', h1, _⟩, _⟩ := this
    simp at h1

theorem merged_meets {sqrt : ℝ → ℝ} (hsq : ∀ x, 0 ≤ x → sqrt x * sqrt x = x) {c1 : Circ}
    (hc : GateCirc c1) {h' : Heap ℝ} {hd : Nat} (hh : Holds c1.nq h' hd (opMat c1)) {nq nc : Nat} {phase : ℝ} {pre post : List Inst} (hn : c1.nq ≤ nq)
    (hlim : nq ≤ NQUBITS) (hfine : ∀ x ∈ pre ++ post, Fine nq nc [] x)
    (hm : ∀ x ∈ pre ++ post, x.op = .measure → x.cond = none)
    {o : Opts} (hmd : ∀ hd, Measured (withMerged c1 nq nc phase pre post hd) o) (hsv : o.saveSV = true → nq ≤ 30)
    {keys : List (List Bool)} (h0 : keys ≠ []) (hs : o.shots = some keys.length) :
    Meets sqrt (run (withMerged c1 nq nc phase pre post hd) o) h' (Memory keys)
      ((keys.map (inlined c1 nq nc phase pre post).prob).prod) := by
  obtain ⟨F', hF, hFF⟩ := hh.ex
  have hsup : Supported h'.ms (withMerged c1 nq nc phase pre post hd) := by
    refine ⟨lt_of_lt_of_le hc.pos hn, hlim, fun x hx => ?_⟩
    simp only [withMerged, List.mem_append, List.mem_cons] at hx
    rcases hx with hx | rfl | hx
    · exact Fine.weaken (hfine x (by simp [hx])) _
    · exact { distinct := List.nodup_range
              qubits := fun q hq => lt_of_lt_of_le (List.mem_range.1 hq) hn
              clbits := by intro c hc; cases hc
              arity := ⟨rfl, List.length_range⟩
              cond := by intro c hc; cases hc
              op := ⟨rfl, hn, ⟨F', hF, hFF⟩, opMat_isometry hc⟩
              aligned := by intro c hc; cases hc }
    · exact Fine.weaken (hfine x (by simp [hx])) _
  have := run_meets (sqrt := sqrt) hsq hsup (o := o) (keys := keys) (h := h') (fun _ x hx hop => by
    simp only [withMerged, List.mem_append, List.mem_cons] at hx
    rcases hx with hx | rfl | hx
    · exact hm x (by simp [hx]) hop
    · cases hop
    · exact hm x (by simp [hx]) hop) hs h0 (hmd hd) hsv ⟨[], by simp⟩
  refine cast (congrArg _ ?_) this
  congr 1
  refine List.map_congr_left fun k _ => ?_
  unfold Circ.prob
  exact expect_append (fun f val => expect_merged hc hn _ (fun x hx => (hfine x (by simp [hx])).toWF) hd f val) pre _ _

/-- **C40.** Merging a circuit of gates and running a circuit that uses the merged gate gives every memory with the
probability of the circuit in which the gates stand themselves. -/
theorem C40_inline_partial (hR : Hist cfg thr thrM cs h σ os) (hsq : ∀ x, 0 ≤ x → cfg.sqrt x * cfg.sqrt x = x) {c1 : Circ}
    (hc : GateCirc c1) {freq : Nat} (hf : 0 < freq) {nq nc : Nat} {phase : ℝ} {pre post : List Inst} (hn : c1.nq ≤ nq)
    (hlim : nq ≤ NQUBITS) (hfine : ∀ x ∈ pre ++ post, Fine nq nc [] x)
    (hm : ∀ x ∈ pre ++ post, x.op = .measure → x.cond = none)
    {o : Opts} (hmd : ∀ hd, Measured (withMerged c1 nq nc phase pre post hd) o) (hsv : o.saveSV = true → nq ≤ 30)
    {keys : List (List Bool)} (h0 : keys ≠ []) (hs : o.shots = some keys.length) :
    Yields cfg (merge c1 freq fun hd => run (withMerged c1 nq nc phase pre post hd) o) σ (Memory keys)
      ((keys.map (inlined c1 nq nc phase pre post).prob).prod) := by
  exact Meets.yields hR (merge_meets hc hf fun h' hd _ hh => merged_meets hsq hc hh hn hlim hfine hm hmd hsv h0 hs)

/-! ## Conditions are lost -/

/-- `x(0)` on the condition that clbit 0 is 1, to be merged. -/
def condX : Circ := ⟨1, 1, 0, [xI 0 (some (.bit 0 1))]⟩
/-- `x(0)`. -/
def plainX : Circ := ⟨1, 1, 0, [xI 0]⟩

theorem plainX_gates : GateCirc plainX where
  pos := by decide
  lim := by decide
  fine := by
    intro x hx
    simp only [plainX, List.mem_singleton] at hx
    subst hx
    exact xI_fine (by decide) (by simp)
  gates := by
    intro x hx
    simp only [plainX, List.mem_singleton] at hx
    subst hx
    exact ⟨rfl, .inr ⟨_, _, rfl⟩⟩

/-- **C40 is false of the code** for conditional gates: merging drops the condition.  `x(0)` conditioned on a clbit that
is 0 does nothing, so the measurement gives 0; with the gate merged it gives 1. -/
theorem C40_false (hR : Hist cfg thr thrM cs h σ os) (hsq : ∀ x, 0 ≤ x → cfg.sqrt x * cfg.sqrt x = x) {o : Opts}
    (hs : o.shots = some 1) (hsv : o.saveSV = false) :
    (inlined condX 1 1 0 [] [mI 0 0]).prob [false] = 1 ∧
    Yields cfg (merge condX 20 fun hd => run (withMerged plainX 1 1 0 [] [mI 0 0] hd) o) σ (Memory [[true]]) 1 := by
  have wm : ∀ y ∈ [mI 0 0], y.WF 1 1 := by
    intro y hy
    rw [List.mem_singleton.1 hy]
    exact (mI_fine (ms := []) (by decide) (by decide) (by simp)).toWF
  constructor
  · unfold Circ.prob
    show Py.expect 1 _ [xI 0 (some (.bit 0 1)), mI 0 0] (bs 0) _ = 1
    rw [expect_x (nc := 1) (by decide) wm, expect_m (nc := 1) (by simp), expect_nil]
    · simp [xI, mI, Inst.enabled, Cond.holds, inlined, upd]
    · simp [xI, Inst.enabled, Cond.holds]
  · have := C40_inline_partial hR hsq plainX_gates (freq := 20) (by decide) (nq := 1) (nc := 1) (phase := 0) (pre := [])
      (post := [mI 0 0]) (by decide) (by decide) (by
        intro x hx
        simp only [List.nil_append, List.mem_singleton] at hx
        subst hx
        exact mI_fine (by decide) (by decide) (by simp)) (by simp [mI]) (o := o) (fun hd => .inr (by
          show (propLoop _ _).measured ≠ []
          simp [withMerged, propLoop, propStep, mergedInst, destabilises, mI])) (by simp [hsv]) (keys := [[true]]) (by simp) hs
    have e : (inlined plainX 1 1 0 [] [mI 0 0]).prob [true] = 1 := by
      unfold Circ.prob
      show Py.expect 1 _ [xI 0, mI 0 0] (bs 0) _ = 1
      rw [expect_x (nc := 1) (by decide) wm, expect_m (nc := 1) (by simp), expect_nil]
      · simp [xI, mI, Inst.enabled, inlined, upd]
      · simp [xI, Inst.enabled]
    simp only [List.map_cons, List.map_nil, e, List.prod_cons, List.prod_nil, mul_one] at this
    exact this

/-! ## Merged gates only act on the lowest qubits -/

/-- Two qubits: the merged `x(0)` appended to qubit 1, then qubit 0 is measured. -/
noncomputable def misplaced (hd : Nat) : Circ := ⟨2, 1, 0, [⟨.qdd hd 1 (opMat plainX), [1], [], none⟩, mI 0 0]⟩

/-- **C40 is false of the code** for merged gates appended to other qubits than the lowest: the engine's matrix is multiplied
as it is (qdd_backend.py 880-884), the qubits of the instruction are not looked at.  Measuring qubit 0 must give 0; it gives 1. -/
theorem C40_misplaced (hR : Hist cfg thr thrM cs h σ os) (hsq : ∀ x, 0 ≤ x → cfg.sqrt x * cfg.sqrt x = x) {o : Opts}
    (hs : o.shots = some 1) (hsv : o.saveSV = false) :
    (∀ hd, (misplaced hd).prob [false] = 1) ∧
    Yields cfg (merge plainX 20 fun hd => run (misplaced hd) o) σ (Memory [[true]]) 1 := by
  have wm : ∀ y ∈ [mI 0 0], y.WF 2 1 := by
    intro y hy
    rw [List.mem_singleton.1 hy]
    exact (mI_fine (ms := []) (by decide) (by decide) (by simp)).toWF
  constructor
  · intro hd
    unfold Circ.prob
    show Py.expect 2 _ [⟨.qdd hd 1 (opMat plainX), [1], [], none⟩, mI 0 0] (bs 0) _ = 1
    rw [Py.expect, if_pos (show Inst.enabled ⟨.qdd hd 1 (opMat plainX), [1], [], none⟩ _ = true from rfl)]
    show Py.expect 2 _ [mI 0 0] (app 2 (onQubits 2 (opMat plainX) [1]) (bs 0)) _ = 1
    have ho : ∀ x < 2, opMat plainX x 0 = bs 1 x := by
      intro x hx
      unfold opMat
      rw [show ket 0 = bs 0 from rfl, show plainX.data = [xI 0] from rfl, show plainX.nq = 1 from rfl, evol_x (by decide) x (by simpa using hx)]
      simp [evol, plainX]
      apply Cx.ext <;> simp
    rw [expect_congr (g := bs 2) _ _ wm, expect_m (nc := 1) (by simp), expect_nil (by decide)]
    · simp [mI, Inst.enabled, misplaced, upd]
    · intro i hi
      have hi : i < 4 := hi
      unfold app
      rw [Finset.sum_eq_single 0 (by intro j _ hj; simp [bs, hj]) (by simp)]
      unfold onQubits
      interval_cases i
      · rw [if_pos (by decide)]; simp [subIndex, ho, bs]
      · rw [if_neg (by decide)]; simp [bs]
      · rw [if_pos (by decide), show subIndex [1] 2 = 1 by simp [subIndex]; decide, show subIndex [1] 0 = 0 by simp [subIndex], ho 1 (by decide)]; simp [bs]
      · rw [if_neg (by decide)]; simp [bs]
  · have he : (fun hd => run (misplaced hd) o) = fun hd => run (withMerged plainX 2 1 0 [] [mI 0 0] hd) o := by
      funext hd
      have e1 : circProp (misplaced hd) (!o.saveSV) = some ⟨true, [(0, 0)], [0]⟩ := rfl
      have e2 : circProp (withMerged plainX 2 1 0 [] [mI 0 0] hd) (!o.saveSV) = some ⟨true, [(0, 0)], [0]⟩ := rfl
      unfold run
      rw [e1, e2]
      dsimp only
      unfold evaluate
      rw [hs]
      rfl
    rw [he]
    have := C40_inline_partial hR hsq plainX_gates (freq := 20) (by decide) (nq := 2) (nc := 1) (phase := 0) (pre := [])
      (post := [mI 0 0]) (by decide) (by decide) (by
        intro x hx
        simp only [List.nil_append, List.mem_singleton] at hx
        subst hx
        exact mI_fine (by decide) (by decide) (by simp)) (by simp [mI]) (o := o) (fun hd => .inr (by
          show (propLoop _ _).measured ≠ []
          simp [withMerged, propLoop, propStep, mergedInst, destabilises, mI])) (by simp [hsv]) (keys := [[true]]) (by simp) hs
    have e : (inlined plainX 2 1 0 [] [mI 0 0]).prob [true] = 1 := by
      unfold Circ.prob
      show Py.expect 2 _ [xI 0, mI 0 0] (bs 0) _ = 1
      rw [expect_x (nc := 1) (by decide) wm, expect_m (nc := 1) (by simp), expect_nil]
      · simp [xI, mI, Inst.enabled, inlined, upd]
      · simp [xI, Inst.enabled]
    simp only [List.map_cons, List.map_nil, e, List.prod_cons, List.prod_nil, mul_one] at this
    exact this

end QDD.Props
