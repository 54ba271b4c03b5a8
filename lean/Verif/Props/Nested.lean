import Verif.Props.Merge
import Verif.Py.Nested
/-!
# C40: merged gates inside merged circuits, and several merged gates
-/

set_option linter.unusedSectionVars false
set_option linter.unusedVariables false
set_option linter.unusedSimpArgs false

namespace QDD.Props
open Spec Api Finset Py Client

variable {cfg : Cfg ℝ} {thr thrM : Nat} {cs : List (Cmd ℝ)} {h : Heap ℝ} {σ : Sys ℝ} {os : List (Obs ℝ)}

/-- **C40 (matrix, merged gates inside).** The matrix of a merged circuit of gates and merged gates, of fewer instructions than `gc_freq`. -/
theorem C40_nested_matrix_partial (hR : Hist cfg thr thrM cs h σ os) {c : Circ} (hc : MixedCirc h.ms c) (h30 : c.nq ≤ 30) {freq : Nat}
    (hf : c.data.length < freq) : Yields cfg (mergeThenRead c freq) σ
      (fun r => r = some (.mat ((List.range (2 ^ c.nq)).map fun i => (List.range (2 ^ c.nq)).map fun j =>
        some (evol c.nq c.data (fun l => if l = j then 1 else 0) i * ⟨Real.cos c.phase, Real.sin c.phase⟩)))) 1 := by
  refine Meets.yields hR (merge_meets' hc hf fun h' hd _ hh => ?_)
  obtain ⟨F', hF, hFF⟩ := hh.ex
  refine Meets.call (h1 := h') ⟨_, hF, le_rfl, h30⟩ (by
    simp only [Spec.step, hF, Option.bind_eq_bind, Option.bind_some]; rfl) ?_
  refine ⟨trivial, trivial, ?_⟩
  show prob _ (.ret _) _ _ = _
  rw [prob, if_pos]
  congr 2
  refine List.map_congr_left fun i hi => List.map_congr_left fun j hj => ?_
  rw [show (⟨c.nq, F'⟩ : Mat ℝ).at c.nq i j = F' i j from at_self ⟨c.nq, F'⟩ (List.mem_range.1 hi) (List.mem_range.1 hj),
    hFF i (List.mem_range.1 hi) j (List.mem_range.1 hj)]
  rfl

/-- The merged gate `hd`, of a circuit of at most `nq` qubits, is fine in a circuit of `nq` qubits. -/
theorem mergedInst_fine {ms : List (Mat ℝ)} {c1 : Circ} {hd nq nc : Nat} (hiso : Isometry c1.nq (opMat c1)) (hn : c1.nq ≤ nq) {F' : Nat → Nat → CR}
    (hF : ms[hd]? = some ⟨c1.nq, F'⟩) (hFF : ∀ i < 2 ^ c1.nq, ∀ j < 2 ^ c1.nq, F' i j = opMat c1 i j) : Fine nq nc ms (mergedInst c1 hd) :=
  { distinct := List.nodup_range
    qubits := fun q hq => lt_of_lt_of_le (List.mem_range.1 hq) hn
    clbits := by intro c hc; cases hc
    arity := ⟨rfl, List.length_range⟩
    cond := by intro c hc; cases hc
    op := ⟨rfl, hn, ⟨F', hF, hFF⟩, hiso⟩
    aligned := by intro c hc; cases hc }

/-- Running a circuit that uses a merged gate which the heap holds. -/
theorem merged_run_meets {sqrt : ℝ → ℝ} (hsq : ∀ x, 0 ≤ x → sqrt x * sqrt x = x) {h : Heap ℝ} {c1 : Circ} (hc : MixedCirc h.ms c1) {h' : Heap ℝ} {hd : Nat}
    (hg : Grown h h') (hh : Holds c1.nq h' hd (opMat c1)) {nq nc : Nat} {phase : ℝ} {pre post : List Inst} (hn : c1.nq ≤ nq)
    (hlim : nq ≤ NQUBITS) (hfine : ∀ x ∈ pre ++ post, Fine nq nc h.ms x)
    (hm : ∀ x ∈ pre ++ post, x.op = .measure → x.cond = none)
    {o : Opts} (hmd : Measured (withMerged c1 nq nc phase pre post hd) o) (hsv : o.saveSV = true → nq ≤ 30)
    {keys : List (List Bool)} (h0 : keys ≠ []) (hs : o.shots = some keys.length) :
    Meets sqrt (run (withMerged c1 nq nc phase pre post hd) o) h' (Memory keys) ((keys.map (inlined c1 nq nc phase pre post).prob).prod) := by
  obtain ⟨F', hF, hFF⟩ := hh.ex
  have hfine' : ∀ x ∈ pre ++ post, Fine nq nc h'.ms x := by
    obtain ⟨_, tl, htl⟩ := hg
    intro x hx
    rw [htl]
    exact (hfine x hx).append tl
  have hsup : Supported h'.ms (withMerged c1 nq nc phase pre post hd) := by
    refine ⟨lt_of_lt_of_le hc.pos hn, hlim, fun x hx => ?_⟩
    simp only [withMerged, List.mem_append, List.mem_cons] at hx
    rcases hx with hx | rfl | hx
    · exact hfine' x (by simp [hx])
    · exact mergedInst_fine (opMat_isometry' hc) hn hF hFF
    · exact hfine' x (by simp [hx])
  have := run_meets (sqrt := sqrt) hsq hsup (o := o) (keys := keys) (h := h') (fun _ x hx hop => by
    simp only [withMerged, List.mem_append, List.mem_cons] at hx
    rcases hx with hx | rfl | hx
    · exact hm x (by simp [hx]) hop
    · cases hop
    · exact hm x (by simp [hx]) hop) hs h0 hmd hsv ⟨[], by simp⟩
  refine cast (congrArg _ ?_) this
  congr 1
  refine List.map_congr_left fun k _ => ?_
  unfold Circ.prob
  exact expect_append (fun f val => expect_merged' hc hn _ (fun x hx => (hfine x (by simp [hx])).toWF) hd f val) pre _ _

/-- **C40 (several merged gates).** Merging a circuit of gates and of merged gates the engine holds already, of fewer instructions than `gc_freq`, and
running a circuit that uses the new merged gate and possibly older ones: as if the instructions of the merged circuit stood themselves. -/
theorem C40_again_partial (hR : Hist cfg thr thrM cs h σ os) (hsq : ∀ x, 0 ≤ x → cfg.sqrt x * cfg.sqrt x = x) {c1 : Circ}
    (hc : MixedCirc h.ms c1) {freq : Nat} (hf : c1.data.length < freq) {nq nc : Nat} {phase : ℝ} {pre post : List Inst} (hn : c1.nq ≤ nq)
    (hlim : nq ≤ NQUBITS) (hfine : ∀ x ∈ pre ++ post, Fine nq nc h.ms x)
    (hm : ∀ x ∈ pre ++ post, x.op = .measure → x.cond = none)
    {o : Opts} (hmd : ∀ hd, Measured (withMerged c1 nq nc phase pre post hd) o) (hsv : o.saveSV = true → nq ≤ 30)
    {keys : List (List Bool)} (h0 : keys ≠ []) (hs : o.shots = some keys.length) :
    Yields cfg (merge c1 freq fun hd => run (withMerged c1 nq nc phase pre post hd) o) σ (Memory keys)
      ((keys.map (inlined c1 nq nc phase pre post).prob).prod) :=
  Meets.yields hR (merge_meets' hc hf fun h' hd hg hh => merged_run_meets hsq hc hg hh hn hlim hfine hm (hmd hd) hsv h0 hs)

/-- The circuit `pre2`, merged gate `hd` of `c1`, `post2`. -/
noncomputable def outer (c1 : Circ) (n2 : Nat) (phase2 : ℝ) (pre2 post2 : List Inst) (hd : Nat) : Circ := withMerged c1 n2 0 phase2 pre2 post2 hd

/-- **C40 (nested).** `c1` is merged, then a circuit that contains the merged gate, then a circuit that contains this one is run: as if the gates of
`c1` stood themselves. -/
theorem C40_nested_partial (hR : Hist cfg thr thrM cs h σ os) (hsq : ∀ x, 0 ≤ x → cfg.sqrt x * cfg.sqrt x = x) {c1 : Circ}
    (hc : GateCirc c1) {freq1 freq2 : Nat} (hf1 : 0 < freq1) {n2 : Nat} {phase2 : ℝ} {pre2 post2 : List Inst} (h12 : c1.nq ≤ n2)
    (hg2 : ∀ x ∈ pre2 ++ post2, Fine n2 0 [] x ∧ x.cond = none ∧ (x.op = .barrier ∨ ∃ g ctl, x.op = .gate g ctl))
    (hf2 : pre2.length + post2.length + 1 < freq2)
    {nq nc : Nat} {phase : ℝ} {pre post : List Inst} (hn : n2 ≤ nq) (hlim : nq ≤ NQUBITS) (hfine : ∀ x ∈ pre ++ post, Fine nq nc [] x)
    (hm : ∀ x ∈ pre ++ post, x.op = .measure → x.cond = none)
    {o : Opts} (hmd : ∀ hd hd', Measured (withMerged (outer c1 n2 phase2 pre2 post2 hd) nq nc phase pre post hd') o) (hsv : o.saveSV = true → nq ≤ 30)
    {keys : List (List Bool)} (h0 : keys ≠ []) (hs : o.shots = some keys.length) :
    Yields cfg (merge c1 freq1 fun hd => merge (outer c1 n2 phase2 pre2 post2 hd) freq2 fun hd' =>
        run (withMerged (outer c1 n2 phase2 pre2 post2 hd) nq nc phase pre post hd') o) σ (Memory keys)
      ((keys.map (Circ.mk nq nc phase (pre ++ pre2 ++ c1.data ++ post2 ++ post)).prob).prod) := by
  refine Meets.yields hR (merge_meets hc hf1 fun h1 hd _ hh1 => ?_)
  obtain ⟨F', hF, hFF⟩ := hh1.ex
  have hc2 : MixedCirc h1.ms (outer c1 n2 phase2 pre2 post2 hd) := by
    refine ⟨lt_of_lt_of_le hc.pos h12, hn.trans hlim, fun x hx => ?_, fun x hx => ?_⟩
    · simp only [outer, withMerged, List.mem_append, List.mem_cons] at hx
      rcases hx with hx | rfl | hx
      · exact Fine.weaken (hg2 x (by simp [hx])).1 _
      · exact mergedInst_fine (opMat_isometry hc) h12 hF hFF
      · exact Fine.weaken (hg2 x (by simp [hx])).1 _
    · simp only [outer, withMerged, List.mem_append, List.mem_cons] at hx
      rcases hx with hx | rfl | hx
      · exact ⟨(hg2 x (by simp [hx])).2.1, (hg2 x (by simp [hx])).2.2.imp_right .inl⟩
      · exact ⟨rfl, .inr (.inr ⟨_, _, _, rfl⟩)⟩
      · exact ⟨(hg2 x (by simp [hx])).2.1, (hg2 x (by simp [hx])).2.2.imp_right .inl⟩
  refine merge_meets' hc2 (by simp [outer, withMerged]; omega) fun h2 hd' hg hh2 => ?_
  have := merged_run_meets hsq hc2 hg hh2 (nq := nq) (nc := nc) (phase := phase) (pre := pre) (post := post) hn hlim
    (fun x hx => Fine.weaken (hfine x hx) _) hm (hmd hd hd') hsv h0 hs
  refine cast (congrArg _ ?_) this
  congr 1
  refine List.map_congr_left fun k _ => ?_
  unfold Circ.prob inlined outer withMerged
  dsimp only
  rw [show pre ++ pre2 ++ c1.data ++ post2 ++ post = (pre ++ pre2) ++ (c1.data ++ (post2 ++ post)) by simp,
    show pre ++ (pre2 ++ mergedInst c1 hd :: post2 ++ post) = (pre ++ pre2) ++ (mergedInst c1 hd :: (post2 ++ post)) by simp]
  refine expect_append (fun f val => ?_) (pre ++ pre2) _ _
  refine expect_merged hc (h12.trans hn) (nc := nc) _ (fun x hx => ?_) hd f val
  rcases List.mem_append.1 hx with hx | hx
  · have hw := (hg2 x (by simp [hx])).1.toWF
    exact { distinct := hw.distinct
            qubits := fun q hq => lt_of_lt_of_le (hw.qubits q hq) hn
            clbits := fun c hc => absurd (hw.clbits c hc) (by omega)
            arity := hw.arity
            cond := by intro c hc; rw [(hg2 x (by simp [hx])).2.1] at hc; cases hc }
  · exact (hfine x (by simp [hx])).toWF

/-- `x(0)` merged; `x(1)`, the merged gate and `x(1)` merged; the result on qubits 0 and 1 of three, which are then measured. -/
example (hR : Hist cfg thr thrM cs h σ os) (hsq : ∀ x, 0 ≤ x → cfg.sqrt x * cfg.sqrt x = x) (k : List Bool) :
    Yields cfg (merge plainX 1 fun hd => merge (outer plainX 2 0 [xI 1] [xI 1] hd) 20 fun hd' =>
        run (withMerged (outer plainX 2 0 [xI 1] [xI 1] hd) 3 2 0 [] [mI 0 0, mI 1 1] hd') ⟨some 1, false⟩) σ (Memory [k])
      (([k].map (Circ.mk 3 2 0 [xI 1, xI 0, xI 1, mI 0 0, mI 1 1]).prob).prod) := by
  refine C40_nested_partial hR hsq plainX_gates (freq1 := 1) (freq2 := 20) (by decide) (n2 := 2) (pre2 := [xI 1]) (post2 := [xI 1]) (by decide) ?_ (by decide)
    (nq := 3) (nc := 2) (pre := []) (post := [mI 0 0, mI 1 1]) (by decide) (by decide) ?_ (by simp [mI]) (fun hd hd' => .inr ?_) (by simp) (by simp) rfl
  · intro x hx
    simp only [List.mem_append, List.mem_singleton, or_self] at hx
    subst hx
    exact ⟨xI_fine (by decide) (by simp), rfl, .inr ⟨_, _, rfl⟩⟩
  · intro x hx
    simp only [List.nil_append, List.mem_cons, List.mem_nil_iff, or_false] at hx
    rcases hx with rfl | rfl
    · exact mI_fine (by decide) (by decide) (by simp)
    · exact mI_fine (by decide) (by decide) (by simp)
  · show (propLoop _ _).measured ≠ []
    simp [outer, withMerged, propLoop, propStep, mergedInst, destabilises, mI]

end QDD.Props
