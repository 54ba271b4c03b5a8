import Verif.Py.Run
/-!
# C35-C38, C54, C55: the Qiskit backend
-/

set_option linter.unusedSectionVars false
set_option linter.unusedVariables false
set_option linter.unusedSimpArgs false

namespace QDD.Props
open Spec Api Finset Py Client

variable {cfg : Cfg ℝ} {thr thrM : Nat} {cs : List (Cmd ℝ)} {h : Heap ℝ} {σ : Sys ℝ} {os : List (Obs ℝ)}

/-- What the backend finds out about a circuit before running it. -/
abbrev classify (c : Circ) : CircProp := propLoop c.data ⟨true, [], []⟩

/-- The circuit has a measurement, or the state vector is asked for (otherwise `run` fails). -/
def Measured (c : Circ) (o : Opts) : Prop := o.saveSV = true ∨ (classify c).measured ≠ []

theorem Meets.yields {α : Type} (hR : Hist cfg thr thrM cs h σ os) {p : Client α} {T : Option α → Prop} {x : ℝ}
    (hm : Meets cfg.sqrt p h T x) : Yields cfg p σ T x := by
  have := Safe.yields T p σ h hR.rel hm.1 hm.2.1
  rwa [hm.2.2] at this

/-- **C54.** After any history, running a supported circuit with `shots = s` on the engine returns the memory `keys`
with the probability that `s` independent executions of the circuit give `keys`.  Missing: conditional measurements in
circuits classified as stable (false, `C35_false`), unaligned register conditions (false, `C36_false`), `UnitaryGate`
(`makeLargeGate` is undefined behaviour, C07), gates with open controls (false, `C56_false`). -/
theorem C54_run_partial (hR : Hist cfg thr thrM cs h σ os) (hsq : ∀ x, 0 ≤ x → cfg.sqrt x * cfg.sqrt x = x) {c : Circ}
    (hc : Supported h.ms c) (hm : (classify c).stable = true → ∀ x ∈ c.data, x.op = .measure → x.cond = none)
    {o : Opts} (hmd : Measured c o) (hsv : o.saveSV = true → c.nq ≤ 30) {keys : List (List Bool)} (h0 : keys ≠ [])
    (hs : o.shots = some keys.length) : Yields cfg (run c o) σ (Memory keys) ((keys.map c.prob).prod) :=
  Meets.yields hR (run_meets hsq hc hm hs h0 hmd hsv ⟨[], by simp⟩)

/-! ## C35 -/

/-- **C35.** A circuit classified as stable, without conditional measurements: sampling from one simulation and
executing shot by shot give every memory with the same probability, that of the circuit. -/
theorem C35_stable_partial (hR : Hist cfg thr thrM cs h σ os) (hsq : ∀ x, 0 ≤ x → cfg.sqrt x * cfg.sqrt x = x) {c : Circ}
    (hc : Supported h.ms c) (hst : (classify c).stable = true) (hm : ∀ x ∈ c.data, x.op = .measure → x.cond = none)
    {o : Opts} (hsv : o.saveSV = true → c.nq ≤ 30) {keys : List (List Bool)} (h0 : keys ≠ [])
    (hs : o.shots = some keys.length) :
    Yields cfg (evaluate c (classify c) o) σ (Memory keys) ((keys.map c.prob).prod) ∧
    Yields cfg (evaluate c { classify c with stable := false } o) σ (Memory keys) ((keys.map c.prob).prod) := by
  refine ⟨?_, Meets.yields hR (executed_meets hsq hc rfl hs h0 hsv ⟨[], by simp⟩)⟩
  obtain ⟨d1, d2, d3⟩ := propLoop_stable c.data (fun x hx => (hc.fine x hx).toWF) hm ⟨true, [], []⟩ (by simp) hst
  have := sampled_meets (sqrt := cfg.sqrt) hc rfl hst d3 hs hsv (h := h) ⟨[], by simp⟩
  refine Meets.yields hR (cast (congrArg _ ?_) this)
  congr 1
  exact List.map_congr_left fun k _ => (prob_deferred hc hm hst k).symm

/-! ### Circuits on basis states -/

/-- The basis state `x`. -/
noncomputable def bs (x : Nat) : Nat → CR := fun i => if i = x then 1 else 0

/-- An X gate. -/
def xI (q : Nat) (cond : Option Cond := none) : Inst := ⟨.gate .X [], [q], [], cond⟩
/-- A measurement. -/
def mI (q c : Nat) (cond : Option Cond := none) : Inst := ⟨.measure, [q], [c], cond⟩

theorem bs_zero : zeroState = bs 0 := rfl

theorem flip_bs (q x : Nat) : Py.flip q (bs x) = bs (x ^^^ 2 ^ q) := by
  funext i
  unfold Py.flip bs
  have : i ^^^ 2 ^ q = x ↔ i = x ^^^ 2 ^ q := by
    constructor
    · rintro rfl; rw [Nat.xor_assoc, Nat.xor_self, Nat.xor_zero]
    · rintro rfl; rw [Nat.xor_assoc, Nat.xor_self, Nat.xor_zero]
  by_cases h : i ^^^ 2 ^ q = x
  · rw [if_pos h, if_pos (this.1 h)]
  · rw [if_neg h, if_neg (fun e => h (this.2 e))]

theorem proj_bs (q x : Nat) (b : Bool) : Py.proj q b (bs x) = if x.testBit q = b then bs x else fun _ => 0 := by
  funext i
  unfold Py.proj bs
  by_cases hi : i = x
  · subst hi
    split
    · rfl
    · rfl
  · simp only [hi, if_false]
    split <;> split <;> simp [hi]

theorem nrm_bs {n x : Nat} (h : x < 2 ^ n) : Py.nrm n (bs x) = 1 := by
  unfold Py.nrm bs
  rw [Finset.sum_eq_single x]
  · simp [Cx.mag2]
  · intro i _ h; rw [if_neg h]; simp [Cx.mag2]
  · intro h'; exact absurd (mem_range.2 h) h'

theorem nrm_zero (n : Nat) : Py.nrm n (fun _ => 0) = 0 := Finset.sum_eq_zero fun i _ => by simp [Cx.mag2]

theorem x_oper (n q : Nat) (cond : Option Cond) : (xI q cond).oper n = some (Spec.gate1 n Gate.Xmat q []) := by
  show GName.oper .X n [] [q] = _
  rw [← built_eq n .X (by intro b hb; cases hb)]
  simp [built, tab1, controls]

theorem expect_x {n nc q x : Nat} (hq : q < n) {φ} {xs : List Inst} (hwf : ∀ y ∈ xs, y.WF n nc) (val : Nat → Bool) {cond} :
    expect n φ (xI q cond :: xs) (bs x) val =
      expect n φ xs (bs (if (xI q cond).enabled val then x ^^^ 2 ^ q else x)) val := by
  rw [Py.expect]
  split
  · show (match (xI q cond).oper n with | some A => expect n φ xs (app n A (bs x)) val | none => 0) = _
    rw [x_oper]
    dsimp only
    rw [expect_congr φ xs hwf val (fun i hi => flip_eq hq (bs x) hi), flip_bs]
  · rfl

theorem expect_m {n nc q x c : Nat} {φ} {xs : List Inst} (hwf : ∀ y ∈ xs, y.WF n nc) (val : Nat → Bool) {cond} :
    expect n φ (mI q c cond :: xs) (bs x) val =
      expect n φ xs (bs x) (if (mI q c cond).enabled val then upd val c (x.testBit q) else val) := by
  rw [Py.expect]
  split
  · show expect n φ xs (Py.proj q false (bs x)) (upd val c false) + expect n φ xs (Py.proj q true (bs x)) (upd val c true) = _
    rw [proj_bs, proj_bs]
    cases x.testBit q
    · rw [if_pos rfl, if_neg (by simp), expect_zero φ hwf (upd val c true) (nrm_zero n), add_zero]
    · rw [if_neg (by simp), if_pos rfl, expect_zero φ hwf (upd val c false) (nrm_zero n), zero_add]
  · rfl

theorem expect_nil {n x : Nat} (hx : x < 2 ^ n) {φ} (val : Nat → Bool) : expect n φ [] (bs x) val = φ val := by
  show Py.nrm n (bs x) * φ val = _
  rw [nrm_bs hx, one_mul]

theorem evol_x {n q x : Nat} (hq : q < n) {xs : List Inst} {cond} : ∀ i < 2 ^ n, evol n (xI q cond :: xs) (bs x) i =
    evol n xs (bs (x ^^^ 2 ^ q)) i := by
  intro i hi
  rw [evol, x_oper]
  dsimp only
  rw [evol_congr xs (fun i hi => flip_eq hq (bs x) hi) i hi, flip_bs]

theorem evol_m {n q c : Nat} {xs : List Inst} {cond} (f : Nat → CR) : evol n (mI q c cond :: xs) f = evol n xs f := rfl

theorem xI_fine {n nc q : Nat} {ms cond} (hq : q < n) (hc : ∀ c, cond = some c → c.wf nc ∧ c.Aligned) : Fine n nc ms (xI q cond) where
  distinct := by simp [xI]
  qubits := by intro a ha; simp [xI] at ha; omega
  clbits := by intro a ha; simp [xI] at ha
  arity := ⟨rfl, by simp [xI, GName.mat1]⟩
  cond := fun c h => (hc c h).1
  op := by intro b hb; cases hb
  aligned := fun c h => (hc c h).2

theorem mI_fine {n nc q c : Nat} {ms cond} (hq : q < n) (hcn : c < nc) (hc : ∀ c, cond = some c → c.wf nc ∧ c.Aligned) :
    Fine n nc ms (mI q c cond) where
  distinct := by simp [mI]
  qubits := by intro a ha; simp [mI] at ha; omega
  clbits := by intro a ha; simp [mI] at ha; omega
  arity := ⟨rfl, rfl⟩
  cond := fun c h => (hc c h).1
  op := trivial
  aligned := fun c h => (hc c h).2

/-- One qubit, one clbit: `x(0)`, then `measure(0, 0)` on the condition that the clbit is 1. -/
def condMeasure : Circ := ⟨1, 1, 0, [xI 0, mI 0 0 (some (.bit 0 1))]⟩

theorem condMeasure_supported (ms : List (Mat ℝ)) : Supported ms condMeasure where
  pos := by decide
  lim := by decide
  fine := by
    intro x hx
    simp only [condMeasure, List.mem_cons, List.mem_nil_iff, or_false] at hx
    rcases hx with rfl | rfl
    · exact xI_fine (by decide) (by simp)
    · exact mI_fine (by decide) (by decide) (by
        intro c hc
        simp only [Option.some.injEq] at hc
        subst hc
        exact ⟨⟨by decide, by decide⟩, trivial⟩)

/-- **C35 is false with conditional measurements.**  The clbit is 0, so the measurement is not executed and the outcome
is "0"; the circuit is classified as stable, and the backend returns "1". -/
theorem C35_false (hR : Hist cfg thr thrM cs h σ os) {o : Opts} (hs : o.shots = some 1) (hsv : o.saveSV = false) :
    (classify condMeasure).stable = true ∧ condMeasure.prob [true] = 0 ∧
    Yields cfg (run condMeasure o) σ (Memory [[true]]) 1 := by
  have hst : (classify condMeasure).stable = true := rfl
  have hfin : (classify condMeasure).final = [(0, 0)] := rfl
  refine ⟨hst, ?_, ?_⟩
  · unfold Circ.prob
    show expect 1 _ [xI 0, mI 0 0 (some (.bit 0 1))] (bs 0) _ = 0
    have w2 : ∀ y ∈ [mI 0 0 (some (.bit 0 1))], y.WF 1 1 :=
      fun y hy => ((condMeasure_supported []).fine y (List.mem_cons_of_mem _ hy)).toWF
    rw [expect_x (nc := 1) (by decide) w2, expect_m (nc := 1) (by simp), expect_nil (by decide)]
    simp [mI, Inst.enabled, Cond.holds, condMeasure]
  · rw [run_some (by decide) (.inr (by decide))]
    have := sampled_meets (sqrt := cfg.sqrt) (condMeasure_supported h.ms) rfl hst (by rw [hfin]; simp [condMeasure])
      (keys := [[true]]) hs (by rw [hsv]; simp) (h := h) ⟨[], by simp⟩
    refine Meets.yields hR (cast (congrArg _ ?_) this)
    rw [hfin]
    have e : ∀ i < 2 ^ 1, evol 1 condMeasure.data zeroState i = bs 1 i := by
      intro i hi
      show evol 1 [xI 0, mI 0 0 (some (.bit 0 1))] (bs 0) i = _
      rw [evol_x (by decide) i hi]
      rfl
    show (List.map _ [[true]]).prod = 1
    simp only [List.map_cons, List.map_nil, List.prod_cons, List.prod_nil, mul_one]
    show ∑ i ∈ range (2 ^ 1), _ = (1 : ℝ)
    rw [show (2 ^ 1 : Nat) = 2 by rfl, Finset.sum_range_succ, Finset.sum_range_one]
    rw [show condMeasure.nq = 1 from rfl, e 0 (by decide), e 1 (by decide)]
    simp [bs, keyOf, readOff, condMeasure, Cx.mag2]

/-! ### What the backend cannot tell apart -/

/-- The backend does the same for both instructions. -/
structure Same (x y : Inst) : Prop where
  step : ∀ (n : Nat) (st sh : Bool) (s : Loc) (k : Loc → Client Result), instr n st sh x s k = instr n st sh y s k
  prop : ∀ s, propStep x s = propStep y s
  cond : x.cond.isSome = y.cond.isSome

theorem insts_same {xs ys : List Inst} (hs : List.Forall₂ Same xs ys) : ∀ (n : Nat) (st sh : Bool) (s : Loc) (k : Loc → Client Result),
    insts n st sh xs s k = insts n st sh ys s k := by
  induction hs with
  | nil => intro n st sh s k; rfl
  | cons h _ ih =>
    intro n st sh s k
    rw [insts, insts, h.step]
    congr 1
    funext s
    exact ih n st sh s k

theorem propLoop_same {xs ys : List Inst} (hs : List.Forall₂ Same xs ys) : ∀ s, propLoop xs s = propLoop ys s := by
  induction hs with
  | nil => intro s; rfl
  | cons h _ ih => intro s; rw [propLoop, propLoop, h.prop, ih]

theorem any_same {xs ys : List Inst} (hs : List.Forall₂ Same xs ys) : xs.any (·.cond.isSome) = ys.any (·.cond.isSome) := by
  induction hs with
  | nil => rfl
  | cons h _ ih => rw [List.any_cons, List.any_cons, h.cond, ih]

theorem run_same {c c' : Circ} (hs : List.Forall₂ Same c.data c'.data) (h1 : c.nq = c'.nq) (h2 : c.nc = c'.nc)
    (h3 : c.phase = c'.phase) (o : Opts) : run c o = run c' o := by
  obtain ⟨nq, nc, ph, xs⟩ := c
  obtain ⟨nq', nc', ph', ys⟩ := c'
  dsimp only at hs h1 h2 h3
  subst h1 h2 h3
  have htrip : ∀ st sh pc (k : Loc → Client Result), trip ⟨nq, nc, ph, xs⟩ st sh pc k = trip ⟨nq, nc, ph, ys⟩ st sh pc k := by
    intro st sh pc k
    unfold trip
    congr 1
    funext o nv nm
    exact insts_same hs _ _ _ _ _
  have hshot : ∀ r s acc (k : Loc → List (List Bool) → Client Result),
      shotLoop ⟨nq, nc, ph, xs⟩ r s acc k = shotLoop ⟨nq, nc, ph, ys⟩ r s acc k := by
    intro r
    induction r with
    | zero => intro s acc k; rfl
    | succ r ih =>
      intro s acc k
      rw [shotLoop, shotLoop, htrip]
      congr 1
      funext s
      exact ih _ _ _
  have hsamp : ∀ f r cur acc (k : List (List Bool) → Client Result),
      Py.sampleLoop ⟨nq, nc, ph, xs⟩ f r cur acc k = Py.sampleLoop ⟨nq, nc, ph, ys⟩ f r cur acc k := by
    intro f r
    induction r with
    | zero => intro cur acc k; rfl
    | succ r ih =>
      intro cur acc k
      rw [Py.sampleLoop, Py.sampleLoop]
      congr 1
      funext us
      congr 1
      funext ob a b
      cases ob <;> try rfl
      exact ih _ _ _
  have hev : ∀ cp, evaluate ⟨nq, nc, ph, xs⟩ cp o = evaluate ⟨nq, nc, ph, ys⟩ cp o := by
    intro cp
    unfold evaluate
    cases o.shots with
    | none =>
      dsimp only
      rw [any_same hs, htrip]
    | some r =>
      dsimp only
      rw [htrip, hshot]
      congr 2
      funext s
      congr 1
      funext cur
      exact hsamp _ _ _ _ _
  unfold run
  have : circProp ⟨nq, nc, ph, xs⟩ (!o.saveSV) = circProp ⟨nq, nc, ph, ys⟩ (!o.saveSV) := by
    unfold circProp
    dsimp only
    rw [propLoop_same hs]
  rw [this]
  cases circProp ⟨nq, nc, ph, ys⟩ (!o.saveSV) with
  | none => rfl
  | some cp => exact hev cp

theorem Same.refl (x : Inst) : Same x x := ⟨fun _ _ _ _ _ => rfl, fun _ => rfl, rfl⟩

/-! ## C36 -/

/-- **C36.** For conditions on single clbits and on registers that begin at clbit 0 - more generally registers and values
that agree bit by bit in the sense of `Aligned` -, an instruction is skipped exactly when the condition does not hold of
the values measured so far.  (Used by C54, which gives the effect on whole runs.) -/
theorem C36_conditions_partial {n nc : Nat} {ms : List (Mat ℝ)} {x : Inst} (hx : Fine n nc ms x) (val : List Bool) :
    skips val x.cond = !x.enabled (fun c => val.getD c false) := skips_eq hx val

/-- **C36, which conditions are tested rightly.**  A condition on a register of clbits `cs` and a value `v` that fits is
tested rightly for all values of the `nc` clbits exactly if for every clbit of the register the bit of `v` at its index in
the circuit is the bit of `v` at its position in the register. -/
theorem C36_exactly {nc v : Nat} {cs : List Nat} (hwf : (Cond.reg cs v).wf nc) :
    (∀ val : List Bool, val.length = nc → skips val (some (.reg cs v)) = !(Cond.reg cs v).holds (fun c => val.getD c false)) ↔
      ∀ m (h : m < cs.length), v.testBit cs[m] = v.testBit m := by
  have hr := fun val => regValue_iff (look val) cs v hwf.2.2
  constructor
  · intro h
    -- the values for which the condition holds
    have hval : ∀ m (hm : m < cs.length), look ((List.range nc).map fun c => v.testBit (cs.idxOf c)) cs[m] = v.testBit m := by
      intro m hm
      have hlt : cs[m] < nc := hwf.2.1 _ (List.getElem_mem hm)
      unfold look
      rw [List.getD_eq_getElem?_getD, List.getElem?_map, List.getElem?_range hlt]
      simp only [Option.map_some, Option.getD_some]
      rw [hwf.1.idxOf_getElem m hm]
    have h1 := (hr _).2 hval
    have h2 := h ((List.range nc).map fun c => v.testBit (cs.idxOf c)) (by simp)
    have h3 : (Cond.reg cs v).holds (look ((List.range nc).map fun c => v.testBit (cs.idxOf c))) = true := by
      simp [Cond.holds, h1]
    rw [show (Cond.reg cs v).holds (fun c => ((List.range nc).map fun c => v.testBit (cs.idxOf c)).getD c false) = true from h3] at h2
    have h4 := (skips_reg _ cs v).1 h2
    intro m hm
    rw [← h4 _ (List.getElem_mem hm), hval m hm]
  · intro h val _
    have hx : Fine 1 nc [] ⟨.barrier, [], [], some (.reg cs v)⟩ := {
      distinct := by simp
      qubits := by simp
      clbits := by simp
      arity := rfl
      cond := by intro c hc; simp only [Option.some.injEq] at hc; subst hc; exact hwf
      op := trivial
      aligned := by intro c hc; simp only [Option.some.injEq] at hc; subst hc; exact h }
    exact skips_eq hx val

example : (Cond.reg [1, 2] 2).wf 3 ∧ (Cond.reg [1] 1).wf 2 ∧
    ¬ ∀ val : List Bool, val.length = 2 → skips val (some (.reg [1] 1)) = !(Cond.reg [1] 1).holds (fun c => val.getD c false) := by
  refine ⟨⟨by decide, by decide, by decide⟩, ⟨by decide, by decide, by decide⟩, fun h => ?_⟩
  have := (C36_exactly ⟨by decide, by decide, by decide⟩).1 h 0 (by decide)
  exact absurd this (by decide)

/-- One qubit; clbit 0, and a register `b` of the single clbit 1: `x(0)`, `measure(0, b[0])`, `x(0)` if `b == 1`,
`measure(0, clbit 0)`. -/
def offsetReg : Circ := ⟨1, 2, 0, [xI 0, mI 0 1, xI 0 (some (.reg [1] 1)), mI 0 0]⟩
/-- What the backend makes of it. -/
def offsetReg' : Circ := ⟨1, 2, 0, [xI 0, mI 0 1, xI 0 (some (.bit 1 0)), mI 0 0]⟩

theorem offsetReg'_supported (ms : List (Mat ℝ)) : Supported ms offsetReg' where
  pos := by decide
  lim := by decide
  fine := by
    intro x hx
    simp only [offsetReg', List.mem_cons, List.mem_nil_iff, or_false] at hx
    rcases hx with rfl | rfl | rfl | rfl
    · exact xI_fine (by decide) (by simp)
    · exact mI_fine (by decide) (by decide) (by simp)
    · exact xI_fine (by decide) (by
        intro c hc
        simp only [Option.some.injEq] at hc
        subst hc
        exact ⟨⟨by decide, by decide⟩, trivial⟩)
    · exact mI_fine (by decide) (by decide) (by simp)

theorem offsetReg_wf : ∀ x ∈ offsetReg.data, x.WF 1 2 := by
  intro x hx
  simp only [offsetReg, List.mem_cons, List.mem_nil_iff, or_false] at hx
  rcases hx with rfl | rfl | rfl | rfl
  · exact (xI_fine (ms := []) (by decide) (by simp)).toWF
  · exact (mI_fine (ms := []) (by decide) (by decide) (by simp)).toWF
  · exact ⟨by simp [xI], by intro a ha; simp [xI] at ha; omega, by intro a ha; simp [xI] at ha,
      ⟨rfl, by simp [xI, GName.mat1]⟩, by
        intro c hc
        simp only [xI, Option.some.injEq] at hc
        subst hc
        exact ⟨by simp, by simp, by simp⟩⟩
  · exact (mI_fine (ms := []) (by decide) (by decide) (by simp)).toWF

/-- **C36 is false for registers that do not begin at clbit 0.**  The register has value 1, so `x` is executed and
clbit 0 reads 0: outcome "10".  The backend compares clbit 1 with bit 1 of the value 1, skips `x` and returns "11". -/
theorem C36_false (hR : Hist cfg thr thrM cs h σ os) (hsq : ∀ x, 0 ≤ x → cfg.sqrt x * cfg.sqrt x = x)
    {o : Opts} (hs : o.shots = some 1) (hsv : o.saveSV = false) :
    offsetReg.prob [true, false] = 1 ∧ Yields cfg (run offsetReg o) σ (Memory [[true, true]]) 1 := by
  constructor
  · unfold Circ.prob
    show Py.expect 1 _ [xI 0, mI 0 1, xI 0 (some (.reg [1] 1)), mI 0 0] (bs 0) _ = 1
    have w := offsetReg_wf
    have w1 : ∀ y ∈ [mI 0 1, xI 0 (some (.reg [1] 1)), mI 0 0], y.WF 1 2 := fun y hy => w y (List.mem_cons_of_mem _ hy)
    have w2 : ∀ y ∈ [xI 0 (some (.reg [1] 1)), mI 0 0], y.WF 1 2 := fun y hy => w1 y (List.mem_cons_of_mem _ hy)
    have w3 : ∀ y ∈ [mI 0 0], y.WF 1 2 := fun y hy => w2 y (List.mem_cons_of_mem _ hy)
    rw [expect_x (nc := 2) (by decide) w1, expect_m (nc := 2) w2, expect_x (nc := 2) (by decide) w3,
      expect_m (nc := 2) (by simp), expect_nil]
    · simp [xI, mI, Inst.enabled, Cond.holds, offsetReg, regValue, upd, List.range_succ]
    · simp [xI, mI, Inst.enabled, Cond.holds, offsetReg, regValue, upd]
  · have hrun : run offsetReg o = run offsetReg' o := by
      refine run_same (c := offsetReg) (c' := offsetReg') ?_ rfl rfl rfl o
      refine .cons (.refl _) (.cons (.refl _) (.cons ⟨?_, fun _ => rfl, rfl⟩ (.cons (.refl _) .nil)))
      intro n st sh s k
      unfold instr
      have : skips s.val (xI 0 (some (.reg [1] 1))).cond = skips s.val (xI 0 (some (.bit 1 0))).cond := by
        show (decide (s.val.getD 1 false ≠ (1 : Nat).testBit 1) || false) = decide ((if s.val.getD 1 false then 1 else 0) ≠ 0)
        generalize s.val.getD 1 false = b
        cases b <;> rfl
      rw [this]
      rfl
    rw [hrun]
    have := run_meets (sqrt := cfg.sqrt) hsq (offsetReg'_supported h.ms) (by intro h; cases h) (keys := [[true, true]]) hs (by simp)
      (.inr (by decide)) (by rw [hsv]; simp) (h := h) ⟨[], by simp⟩
    refine Meets.yields hR (cast (congrArg _ ?_) this)
    simp only [List.map_cons, List.map_nil, List.prod_cons, List.prod_nil, mul_one]
    unfold Circ.prob
    show Py.expect 1 _ [xI 0, mI 0 1, xI 0 (some (.bit 1 0)), mI 0 0] (bs 0) _ = 1
    have w := fun y hy => ((offsetReg'_supported []).fine y hy).toWF
    have w1 : ∀ y ∈ [mI 0 1, xI 0 (some (.bit 1 0)), mI 0 0], y.WF 1 2 := fun y hy => w y (List.mem_cons_of_mem _ hy)
    have w2 : ∀ y ∈ [xI 0 (some (.bit 1 0)), mI 0 0], y.WF 1 2 := fun y hy => w1 y (List.mem_cons_of_mem _ hy)
    have w3 : ∀ y ∈ [mI 0 0], y.WF 1 2 := fun y hy => w2 y (List.mem_cons_of_mem _ hy)
    rw [expect_x (nc := 2) (by decide) w1, expect_m (nc := 2) w2, expect_x (nc := 2) (by decide) w3,
      expect_m (nc := 2) (by simp), expect_nil]
    · simp [xI, mI, Inst.enabled, Cond.holds, offsetReg', regValue, upd, List.range_succ]
    · simp [xI, mI, Inst.enabled, Cond.holds, offsetReg', regValue, upd]

/-! ## C37 -/

theorem keyOf_bits {n i : Nat} : keyOf n i.testBit = bits n i := rfl

theorem probs_meets {sqrt : ℝ → ℝ} {ms} {c : Circ} (hc : Supported ms c) (h30 : c.nq ≤ 30)
    (hst : (classify c).stable = true) (hcd : ∀ x ∈ c.data, x.cond = none) (hn : c.nc = c.nq)
    (hid : ∀ q < c.nq, (classify c).final.lookup q = some q) {o : Opts} (hmd : Measured c o) (hs : o.shots = none)
    {h : Heap ℝ} (hh : ∃ tl, h.ms = ms ++ tl) :
    Meets sqrt (run c o) h (Probs ((List.range (2 ^ c.nq)).map fun i => c.prob (bits c.nq i))) 1 := by
  rw [run_some hc.lim hmd]
  have := probs_stable_meets (sqrt := sqrt) hc h30 rfl hst hcd hs hh
  refine cast ?_ this
  congr 2
  refine List.map_congr_left fun i hi => ?_
  have hi := List.mem_range.1 hi
  rw [prob_deferred hc (fun x hx _ => hcd x hx) hst]
  have hk : ∀ j, keyOf c.nc (readOff (classify c).final j) = bits c.nq j := by
    intro j
    rw [hn, ← keyOf_bits]
    unfold keyOf
    congr 1
    refine List.map_congr_left fun q hq => ?_
    unfold readOff
    rw [hid q (List.mem_range.1 hq)]
  rw [Finset.sum_eq_single i]
  · rw [if_pos (hk i).symm, mul_one]
  · intro j hj hne
    rw [if_neg, mul_zero]
    intro e
    rw [hk] at e
    exact hne (bits_inj hi (mem_range.1 hj) e).symm
  · intro h'; exact absurd (mem_range.2 hi) h'

/-- **C37.** Without shots: a circuit classified as stable with as many clbits as qubits, clbit `q` being measured last
from qubit `q`, gives for each index the probability of the outcome with these bits.  Missing: other measurement maps
(false, `C37_false_map`) and circuits not classified as stable (false, `C37_false_unmeasured`). -/
theorem C37_probabilities_partial (hR : Hist cfg thr thrM cs h σ os) {c : Circ} (hc : Supported h.ms c) (h30 : c.nq ≤ 30)
    (hst : (classify c).stable = true) (hcd : ∀ x ∈ c.data, x.cond = none) (hn : c.nc = c.nq)
    (hid : ∀ q < c.nq, (classify c).final.lookup q = some q) {o : Opts} (hmd : Measured c o) (hs : o.shots = none) :
    Yields cfg (run c o) σ (Probs ((List.range (2 ^ c.nq)).map fun i => c.prob (bits c.nq i))) 1 := by
  exact Meets.yields hR (probs_meets hc h30 hst hcd hn hid hmd hs ⟨[], by simp⟩)

/-- Two qubits measured crosswise. -/
def crossed : Circ := ⟨2, 2, 0, [xI 0, mI 0 1, mI 1 0]⟩

theorem crossed_supported (ms : List (Mat ℝ)) : Supported ms crossed where
  pos := by decide
  lim := by decide
  fine := by
    intro x hx
    simp only [crossed, List.mem_cons, List.mem_nil_iff, or_false] at hx
    rcases hx with rfl | rfl | rfl
    · exact xI_fine (by decide) (by simp)
    · exact mI_fine (by decide) (by decide) (by simp)
    · exact mI_fine (by decide) (by decide) (by simp)

theorem crossed_meets {sqrt : ℝ → ℝ} {ms} {o : Opts} (hs : o.shots = none) {h : Heap ℝ} (hh : ∃ tl, h.ms = ms ++ tl) :
    Meets sqrt (run crossed o) h (Probs [0, 1, 0, 0]) 1 := by
  rw [run_some (by decide) (.inr (by decide))]
  have := probs_stable_meets (sqrt := sqrt) (crossed_supported ms) (by decide) rfl rfl
    (by simp [crossed, xI, mI]) hs hh
  refine cast ?_ this
  congr 2
  have e : ∀ i < 2 ^ 2, evol 2 crossed.data zeroState i = bs 1 i := by
    intro i hi
    show evol 2 [xI 0, mI 0 1, mI 1 0] (bs 0) i = _
    rw [evol_x (by decide) i hi]
    rfl
  show [_, _, _, _] = _
  dsimp only
  rw [show crossed.nq = 2 from rfl, e 0 (by decide), e 1 (by decide), e 2 (by decide), e 3 (by decide)]
  simp [bs, Cx.mag2]

/-- **C37 is false for other measurement maps**: the outcome is "10" (index 2), the backend reports index 1. -/
theorem C37_false_map (hR : Hist cfg thr thrM cs h σ os) {o : Opts} (hs : o.shots = none) :
    crossed.prob (bits 2 2) = 1 ∧ Yields cfg (run crossed o) σ (Probs [0, 1, 0, 0]) 1 := by
  constructor
  · unfold Circ.prob
    show Py.expect 2 _ [xI 0, mI 0 1, mI 1 0] (bs 0) _ = 1
    have w := fun y hy => ((crossed_supported []).fine y hy).toWF
    have w1 : ∀ y ∈ [mI 0 1, mI 1 0], y.WF 2 2 := fun y hy => w y (List.mem_cons_of_mem _ hy)
    have w2 : ∀ y ∈ [mI 1 0], y.WF 2 2 := fun y hy => w1 y (List.mem_cons_of_mem _ hy)
    rw [expect_x (nc := 2) (by decide) w1, expect_m (nc := 2) w2, expect_m (nc := 2) (by simp), expect_nil]
    · simp [xI, mI, Inst.enabled, crossed, upd, List.range_succ, bits]
      decide
    · simp [xI, Inst.enabled]
  · exact Meets.yields hR (crossed_meets hs (ms := h.ms) ⟨[], by simp⟩)

/-- One qubit, two clbits of which the second is never written; the measured qubit is used again. -/
def unwritten : Circ := ⟨1, 2, 0, [mI 0 0, xI 0]⟩

theorem unwritten_supported (ms : List (Mat ℝ)) : Supported ms unwritten where
  pos := by decide
  lim := by decide
  fine := by
    intro x hx
    simp only [unwritten, List.mem_cons, List.mem_nil_iff, or_false] at hx
    rcases hx with rfl | rfl
    · exact mI_fine (by decide) (by decide) (by simp)
    · exact xI_fine (by decide) (by simp)

/-- **C37 is false for circuits not classified as stable**: a clbit that is never written is 0, the backend reports it
as 1 with probability 1: "10" (index 2) instead of "00". -/
theorem C37_false_unmeasured (hR : Hist cfg thr thrM cs h σ os) {o : Opts} (hs : o.shots = none) (hsv : o.saveSV = false) :
    unwritten.prob (bits 2 0) = 1 ∧ Yields cfg (run unwritten o) σ (Probs [0, 0, 1, 0]) 1 := by
  constructor
  · unfold Circ.prob
    show Py.expect 1 _ [mI 0 0, xI 0] (bs 0) _ = 1
    have w := fun y hy => ((unwritten_supported []).fine y hy).toWF
    have w1 : ∀ y ∈ [xI 0], y.WF 1 2 := fun y hy => w y (List.mem_cons_of_mem _ hy)
    rw [expect_m (nc := 2) w1, expect_x (nc := 2) (by decide) (by simp), expect_nil]
    · simp [xI, mI, Inst.enabled, unwritten, upd, List.range_succ, bits]
    · simp [xI, Inst.enabled]
  · rw [run_some (by decide) (.inr (by decide))]
    have := probs_unstable_meets (sqrt := cfg.sqrt) (cp := classify unwritten) (unwritten_supported h.ms) rfl
      (by simp [unwritten, xI, mI]) (by rw [hsv]; simp) hs (h := h) ⟨[], by simp⟩
    refine Meets.yields hR (cast ?_ this)
    congr 2
    have e : margs 1 unwritten.data zeroState [0, 0] = [1, 0] := by
      show margs 1 [mI 0 0, xI 0] (bs 0) [0, 0] = _
      rw [margs]
      show margs 1 [xI 0] (bs 0) ([0, 0].set 0 (Py.nrm 1 (Py.proj 0 false (bs 0)))) = _
      rw [proj_bs, if_pos (by decide), nrm_bs (by decide), margs]
      show (match (xI 0).oper 1 with | some A => margs 1 [] (app 1 A (bs 0)) [1, 0] | none => margs 1 [] (bs 0) [1, 0]) = _
      rw [x_oper]
      rfl
    show marginProduct 2 (margs 1 unwritten.data zeroState [0, 0]) = _
    rw [e]
    simp [marginProduct, List.range_succ]
    decide

/-! ## C55 -/

/-- **C55.** With the state vector saved, a supported circuit classified as stable on at most 30 qubits yields, whatever
the draws of the measurements, the amplitudes of the gates applied to |0…0⟩, times the global phase. -/
theorem C55_statevector (hR : Hist cfg thr thrM cs h σ os) {c : Circ} (hc : Supported h.ms c) (h30 : c.nq ≤ 30)
    (hst : (classify c).stable = true) {o : Opts} (hsv : o.saveSV = true)
    (hcd : o.shots = none → ∀ x ∈ c.data, x.cond = none) :
    Yields cfg (run c o) σ (StateVector ((List.range (2 ^ c.nq)).map fun i =>
      evol c.nq c.data zeroState i * ⟨Real.cos c.phase, Real.sin c.phase⟩)) 1 :=
  Meets.yields hR (statevector_meets hc h30 hst hsv hcd ⟨[], by simp⟩)

/-! ## C38 -/

/-- Whatever the engine answers and whatever is drawn, a result that is returned satisfies `P`. -/
def AllRets {α : Type} (P : α → Prop) : Client α → Prop
  | .ret a => P a
  | .raise => True
  | .draw k => ∀ u, AllRets P (k u)
  | .call _ k => ∀ o a b, AllRets P (k o a b)

theorem AllRets.exec {α : Type} {P : α → Prop} {p : Client α} (hp : AllRets P p) {σ σ' : Sys ℝ} {us a}
    (hx : MExec cfg p σ us (some a) σ') : P a := by
  generalize hr : some a = r at hx
  induction hx with
  | ret b σ => cases hr; exact hp
  | raise σ => cases hr
  | draw _ ih => exact ih (hp _) hr
  | call _ _ ih => exact ih (hp _ _ _) hr

/-- `s` keys of width `nc`. -/
def WellCounted (s nc : Nat) (mem : List (List Bool)) : Prop := mem.length = s ∧ ∀ key ∈ mem, key.length = nc

theorem instr_val {P : Result → Prop} {nc : Nat} (n : Nat) (st sh : Bool) (x : Inst) (s : Loc) (k : Loc → Client Result)
    (hs : s.val.length = nc) (hk : ∀ s' : Loc, s'.val.length = nc → AllRets P (k s')) : AllRets P (instr n st sh x s k) := by
  have hap : ∀ nm, AllRets P (applyLast s nm k) := fun nm o a b o' a' b' => hk _ hs
  have hco : ∀ s' : Loc, s'.val.length = nc → AllRets P (Py.collect s' k) := fun s' h o a b => hk _ h
  unfold instr
  split
  · exact hk s hs
  · cases x.op with
    | barrier => exact hk s hs
    | measure =>
      dsimp only
      split
      · exact hk s hs
      · split
        · intro u o a b
          cases o <;> first | trivial | skip
          exact hco _ (by simpa using hs)
        · intro o a b
          cases o <;> first | trivial | skip
          exact hco _ hs
    | reset =>
      dsimp only
      split
      · trivial
      · intro u o a b
        cases o <;> first | trivial | skip
        dsimp only
        split
        · intro o a b; exact hap b
        · exact hco _ hs
    | gate g ctl =>
      dsimp only
      split
      · trivial
      · cases tab1 g with
        | some m =>
          dsimp only
          cases x.qargs.reverse with
          | nil => trivial
          | cons t cs => intro o a b; exact hap b
        | none =>
          dsimp only
          cases tab2 g with
          | some m =>
            dsimp only
            rcases x.qargs.reverse with _ | ⟨t, _ | ⟨t', cs⟩⟩
            · trivial
            · trivial
            · intro o a b; exact hap b
          | none => trivial
    | qdd hd k' M => intro o a b o' a' b'; exact hk _ hs
    | unitary => trivial
    | other => trivial

theorem insts_val {P : Result → Prop} {nc : Nat} (n : Nat) (st sh : Bool) : ∀ (xs : List Inst) (s : Loc) (k : Loc → Client Result),
    s.val.length = nc → (∀ s' : Loc, s'.val.length = nc → AllRets P (k s')) → AllRets P (insts n st sh xs s k) := by
  intro xs
  induction xs with
  | nil => intro s k hs hk; exact hk s hs
  | cons x xs ih =>
    intro s k hs hk
    exact instr_val n st sh x s _ hs fun s' hs' => ih s' k hs' hk

theorem trip_val {P : Result → Prop} (c : Circ) (st sh : Bool) (pc : List ℝ) (k : Loc → Client Result)
    (hk : ∀ s' : Loc, s'.val.length = c.nc → AllRets P (k s')) : AllRets P (trip c st sh pc k) := by
  intro o a b
  exact insts_val c.nq st sh c.data _ k (by simp) hk

theorem withSV_val {P : Result → Prop} {sv : Bool} {cur : Nat} {r : Result}
    (hr : ∀ l, P { r with statevector := l }) (hr0 : P r) : AllRets P (withSV sv cur r) := by
  unfold withSV
  split
  · intro o a b
    cases o <;> first | trivial | skip
    exact hr _
  · exact hr0

theorem shotLoop_val {P : Result → Prop} (c : Circ) (k : Loc → List (List Bool) → Client Result) {total : Nat}
    (hk : ∀ s mem, WellCounted total c.nc mem → AllRets P (k s mem)) : ∀ (r : Nat) (s : Loc) (acc : List (List Bool)),
      acc.length + r = total → (∀ key ∈ acc, key.length = c.nc) → AllRets P (shotLoop c r s acc k) := by
  intro r
  induction r with
  | zero => intro s acc hl ha; exact hk s acc ⟨hl, ha⟩
  | succ r ih =>
    intro s acc hl ha
    refine trip_val c _ _ _ _ fun s' hs' => ih s' _ (by rw [List.length_append, List.length_singleton]; omega) ?_
    intro key hkey
    rcases List.mem_append.1 hkey with h | h
    · exact ha key h
    · rw [List.mem_singleton.1 h, List.length_reverse, hs']

theorem drawN_val {P : Result → Prop} : ∀ (n : Nat) (k : List ℝ → Client Result), (∀ us, AllRets P (k us)) → AllRets P (drawN n k) := by
  intro n
  induction n with
  | zero => intro k hk; exact hk []
  | succ n ih => intro k hk u; exact ih _ fun us => hk (u :: us)

theorem sampleLoop_val {P : Result → Prop} (c : Circ) (final : List (Nat × Nat)) (k : List (List Bool) → Client Result) {total : Nat}
    (hk : ∀ mem, WellCounted total c.nc mem → AllRets P (k mem)) : ∀ (r cur : Nat) (acc : List (List Bool)),
      acc.length + r = total → (∀ key ∈ acc, key.length = c.nc) → AllRets P (Py.sampleLoop c final r cur acc k) := by
  intro r
  induction r with
  | zero => intro cur acc hl ha; exact hk acc ⟨hl, ha⟩
  | succ r ih =>
    intro cur acc hl ha
    refine drawN_val c.nq _ fun us o a b => ?_
    cases o <;> first | trivial | skip
    refine ih cur _ (by rw [List.length_append, List.length_singleton]; omega) ?_
    intro key hkey
    rcases List.mem_append.1 hkey with h | h
    · exact ha key h
    · rw [List.mem_singleton.1 h, List.length_reverse]; simp [finalKey]

/-- The memory, if the result has one, is well counted; with shots it has one. -/
theorem run_val (c : Circ) (o : Opts) :
    AllRets (fun res => ∀ s, o.shots = some s → ∃ mem, res.memory = some mem ∧ WellCounted s c.nc mem) (run c o) := by
  unfold run
  cases circProp c (!o.saveSV) with
  | none => trivial
  | some cp =>
    dsimp only
    unfold evaluate
    cases hs : o.shots with
    | none =>
      dsimp only
      split
      · trivial
      · refine trip_val c _ _ _ _ fun s' _ o' a b => ?_
        split
        · intro o' a b
          cases o' <;> first | trivial | skip
          exact withSV_val (fun l s h => by cases h) (fun s h => by cases h)
        · exact withSV_val (fun l s h => by cases h) (fun s h => by cases h)
    | some r =>
      dsimp only
      have hf : ∀ cur mem, WellCounted r c.nc mem → AllRets (fun res : Result => ∀ s, some r = some s →
          ∃ mem, res.memory = some mem ∧ WellCounted s c.nc mem) (withSV o.saveSV cur ⟨some mem, none, none⟩) := by
        intro cur mem hm
        exact withSV_val (fun l s h => by cases h; exact ⟨mem, rfl, hm⟩) (fun s h => by cases h; exact ⟨mem, rfl, hm⟩)
      split
      · refine trip_val c _ _ _ _ fun s' _ o' a b => ?_
        exact sampleLoop_val c _ _ (fun mem hm => hf _ mem hm) r _ [] (by simp) (by simp)
      · refine shotLoop_val c _ (total := r) (fun s mem hm => ?_) r _ [] (by simp) (by simp)
        intro o' a b
        exact hf _ mem hm

/-- **C38.** For every circuit (supported or not), every state of the engine and every schedule: if a run with `s` shots
returns, the counts add up to `s` and every key counted has one character per clbit. -/
theorem C38_counts {c : Circ} {o : Opts} {s : Nat} (hs : o.shots = some s) {σ σ' : Sys ℝ} {us : List ℝ} {res : Result}
    (hx : MExec cfg (run c o) σ us (some res) σ') :
    ∃ mem, res.memory = some mem ∧ ∑ key ∈ mem.toFinset, counts mem key = s ∧
      ∀ key, 0 < counts mem key → key.length = c.nc := by
  obtain ⟨mem, h1, h2, h3⟩ := (run_val c o).exec hx s hs
  refine ⟨mem, h1, ?_, fun key hk => h3 key (List.count_pos_iff.1 hk)⟩
  unfold counts
  rw [← h2, ← List.sum_toFinset_count_eq_length mem]
  refine Finset.sum_congr rfl fun key _ => ?_
  congr!

/-! ## C56 -/

/-- **C56.** The gate the backend builds for a named gate with closed controls is the gate of the Qiskit documentation,
and it preserves norms. -/
theorem C56_gates_partial (n : Nat) (g : GName) {ctl : List Bool} (hc : Py.Closed ctl) (qs : List Nat) :
    built n g qs = g.oper n ctl qs := built_eq n g hc qs

/-- `cx` with `ctrl_state = 0`: flip qubit 1 when qubit 0 is 0; then measure qubit 1. -/
def openCtrl : Circ := ⟨2, 1, 0, [⟨.gate .CX [false], [0, 1], [], none⟩, mI 1 0]⟩
def openCtrl' : Circ := ⟨2, 1, 0, [⟨.gate .CX [true], [0, 1], [], none⟩, mI 1 0]⟩

theorem openCtrl'_supported (ms : List (Mat ℝ)) : Supported ms openCtrl' where
  pos := by decide
  lim := by decide
  fine := by
    intro x hx
    simp only [openCtrl', List.mem_cons, List.mem_nil_iff, or_false] at hx
    rcases hx with rfl | rfl
    · exact { distinct := by simp, qubits := by simp [openCtrl'], clbits := by simp, arity := ⟨rfl, by simp [GName.mat1]⟩, cond := by simp,
              op := (by intro b hb; simpa using hb), aligned := by simp }
    · exact mI_fine (by decide) (by decide) (by simp)

theorem app_bs {n : Nat} (A : Nat → Nat → CR) {x : Nat} (hx : x < 2 ^ n) (i : Nat) : app n A (bs x) i = A i x := by
  unfold app bs
  rw [Finset.sum_eq_single x]
  · rw [if_pos rfl, mul_one]
  · intro j _ hj; rw [if_neg hj, mul_zero]
  · intro h; exact absurd (mem_range.2 hx) h

/-- **C56 is false for open controls**: qubit 0 is 0, so the outcome is "1"; the backend ignores `ctrl_state` and
returns "0". -/
theorem C56_false (hR : Hist cfg thr thrM cs h σ os) (hsq : ∀ x, 0 ≤ x → cfg.sqrt x * cfg.sqrt x = x)
    {o : Opts} (hs : o.shots = some 1) (hsv : o.saveSV = false) :
    openCtrl.prob [true] = 1 ∧ Yields cfg (run openCtrl o) σ (Memory [[false]]) 1 := by
  have wm : ∀ y ∈ [mI 1 0], y.WF 2 1 := by
    intro y hy
    rw [List.mem_singleton.1 hy]
    exact (mI_fine (ms := []) (by decide) (by decide) (by simp)).toWF
  have hgate : ∀ (b : Bool) (φ : (Nat → Bool) → ℝ), Py.expect 2 φ [⟨.gate .CX [b], [0, 1], [], none⟩, mI 1 0] (bs 0) (fun _ => false) =
      φ (upd (fun _ => false) 0 (!b)) := by
    intro b φ
    rw [Py.expect, if_pos (show Inst.enabled _ _ = true from rfl)]
    have hop : (⟨.gate .CX [b], [0, 1], [], none⟩ : Inst).oper 2 = some (Spec.gate1 2
        (fun r c => ofC ((!![0, 1; 1, 0] : Matrix (Fin 2) (Fin 2) ℂ) (fin2 r) (fin2 c))) 1 [⟨0, !b⟩]) := rfl
    rw [hop]
    show Py.expect 2 φ [mI 1 0] (app 2 _ (bs 0)) _ = _
    have e : ∀ i < 2 ^ 2, app 2 (Spec.gate1 2 (fun r c => ofC ((!![0, 1; 1, 0] : Matrix (Fin 2) (Fin 2) ℂ) (fin2 r) (fin2 c))) 1
        [⟨0, !b⟩]) (bs 0) i = bs (if b then 0 else 2) i := by
      intro i hi
      rw [app_bs _ (by decide)]
      have hi : i < 4 := hi
      have hA : ∀ i < 4, (∀ b < 2, b ≠ 1 → i.testBit b = (0 : Nat).testBit b) ↔ (i = 0 ∨ i = 2) := by decide
      unfold Spec.gate1 bs
      simp only [hA i hi]
      by_cases h0 : i = 0
      · subst h0
        rw [if_pos (.inl rfl)]
        cases b
        · rw [if_pos (by decide)]; simp [bit, fin2, ofC]; rfl
        · rw [if_neg (by decide)]; simp
      · by_cases h2 : i = 2
        · subst h2
          rw [if_pos (.inr rfl)]
          cases b
          · rw [if_pos (by decide)]; simp [bit, fin2, ofC, Nat.testBit]; rfl
          · rw [if_neg (by decide)]; simp [Nat.testBit]
        · rw [if_neg (by simp [h0, h2]), if_neg]
          cases b
          · exact h2
          · exact h0
    rw [expect_congr φ _ wm _ e, expect_m (nc := 1) (by simp), expect_nil (by cases b <;> decide)]
    congr 1
    cases b <;> rfl
  constructor
  · unfold Circ.prob
    rw [show openCtrl.nq = 2 from rfl, show openCtrl.data = [⟨.gate .CX [false], [0, 1], [], none⟩, mI 1 0] from rfl, bs_zero, hgate]
    simp [openCtrl, upd]
  · rw [run_same (c := openCtrl) (c' := openCtrl') (.cons ⟨fun _ _ _ _ _ => rfl, fun _ => rfl, rfl⟩ (.cons (.refl _) .nil)) rfl rfl rfl]
    have := run_meets (sqrt := cfg.sqrt) hsq (openCtrl'_supported h.ms) (by simp [openCtrl', mI]) (keys := [[false]]) hs (by simp)
      (.inr (by decide)) (by rw [hsv]; simp) (h := h) ⟨[], by simp⟩
    refine Meets.yields hR (cast (congrArg _ ?_) this)
    simp only [List.map_cons, List.map_nil, List.prod_cons, List.prod_nil, mul_one]
    unfold Circ.prob
    rw [show openCtrl'.nq = 2 from rfl, show openCtrl'.data = [⟨.gate .CX [true], [0, 1], [], none⟩, mI 1 0] from rfl, bs_zero, hgate]
    simp [openCtrl', upd]

/-! ## The hypotheses are met -/

/-- A Bell pair, measured. -/
def bell : Circ := ⟨2, 2, 0, [⟨.gate .H [], [0], [], none⟩, ⟨.gate .CX [true], [0, 1], [], none⟩, mI 0 0, mI 1 1]⟩

theorem bell_supported (ms : List (Mat ℝ)) : Supported ms bell where
  pos := by decide
  lim := by decide
  fine := by
    intro x hx
    simp only [bell, List.mem_cons, List.mem_nil_iff, or_false] at hx
    rcases hx with rfl | rfl | rfl | rfl
    · exact { distinct := by simp, qubits := by simp [bell], clbits := by simp, arity := ⟨rfl, by simp [GName.mat1]⟩,
              cond := by simp, op := (by intro b hb; cases hb), aligned := by simp }
    · exact { distinct := by simp, qubits := by simp [bell], clbits := by simp, arity := ⟨rfl, by simp [GName.mat1]⟩,
              cond := by simp, op := (by intro b hb; simpa using hb), aligned := by simp }
    · exact mI_fine (by decide) (by decide) (by simp)
    · exact mI_fine (by decide) (by decide) (by simp)

/-- A coin, a correction that depends on it, a reset, and a second measurement. -/
def feedback : Circ := ⟨2, 2, 0, [⟨.gate .H [], [0], [], none⟩, mI 0 0, xI 1 (some (.reg [0, 1] 1)), ⟨.reset, [0], [], none⟩,
  ⟨.gate .CX [true], [0, 1], [], none⟩, mI 1 1]⟩

theorem feedback_supported (ms : List (Mat ℝ)) : Supported ms feedback where
  pos := by decide
  lim := by decide
  fine := by
    intro x hx
    simp only [feedback, List.mem_cons, List.mem_nil_iff, or_false] at hx
    rcases hx with rfl | rfl | rfl | rfl | rfl | rfl
    · exact { distinct := by simp, qubits := by simp [feedback], clbits := by simp, arity := ⟨rfl, by simp [GName.mat1]⟩,
              cond := by simp, op := (by intro b hb; cases hb), aligned := by simp }
    · exact mI_fine (by decide) (by decide) (by simp)
    · refine xI_fine (by decide) ?_
      intro c hc
      simp only [Option.some.injEq] at hc
      subst hc
      exact ⟨⟨by simp, by simp [feedback], by decide⟩, Cond.aligned_range 2 1⟩
    · exact { distinct := by simp, qubits := by simp [feedback], clbits := by simp, arity := ⟨rfl, rfl⟩,
              cond := by simp, op := trivial, aligned := by simp }
    · exact { distinct := by simp, qubits := by simp [feedback], clbits := by simp, arity := ⟨rfl, by simp [GName.mat1]⟩,
              cond := by simp, op := (by intro b hb; simpa using hb), aligned := by simp }
    · exact mI_fine (by decide) (by decide) (by simp)

/-- Both circuits, on a fresh engine and after a history, with 2 shots. -/
theorem backend_demo (env : Env (C ℝ)) (mt : Bool) {thr thrM cs h σ os}
    (hR : Hist ⟨env, mt, Real.sqrt⟩ thr thrM cs h σ os) (k1 k2 : List Bool) :
    (classify bell).stable = true ∧ (classify feedback).stable = false ∧
    Yields ⟨env, mt, Real.sqrt⟩ (run bell ⟨some 2, false⟩) σ (Memory [k1, k2]) (bell.prob k1 * bell.prob k2) ∧
    Yields ⟨env, mt, Real.sqrt⟩ (run feedback ⟨some 2, false⟩) σ (Memory [k1, k2]) (feedback.prob k1 * feedback.prob k2) := by
  have hsq : ∀ x : ℝ, 0 ≤ x → Real.sqrt x * Real.sqrt x = x := fun x hx => Real.mul_self_sqrt hx
  refine ⟨rfl, rfl, ?_, ?_⟩
  · have := C54_run_partial hR hsq (bell_supported h.ms) (by simp [bell, mI]) (o := ⟨some 2, false⟩) (.inr (by decide))
      (by simp) (keys := [k1, k2]) (by simp) rfl
    simpa using this
  · have := C54_run_partial hR hsq (feedback_supported h.ms) (by intro h; cases h) (o := ⟨some 2, false⟩) (.inr (by decide))
      (by simp) (keys := [k1, k2]) (by simp) rfl
    simpa using this

end QDD.Props
