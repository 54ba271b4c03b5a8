import Verif.Props.Backend
/-!
# What the backend runs instead of the circuits it misreads (C35, C54, C56)
-/

set_option linter.unusedSectionVars false
set_option linter.unusedVariables false
set_option linter.unusedSimpArgs false

namespace QDD.Props
open Spec Api Gate Finset Py Py.Client

variable {cfg : Cfg ℝ} {thr thrM : Nat} {cs : List (Cmd ℝ)} {h : Heap ℝ} {σ : Sys ℝ} {os : List (Obs ℝ)}

/-! ### How the backend reads a circuit -/

/-- All controls closed. -/
def closeOp : Op → Op
  | .gate g ctl => .gate g (ctl.map fun _ => true)
  | o => o

/-- The qubits an instruction acts on: of a `QDDGate`, the lowest ones, whatever its arguments. -/
def readArgs : Op → List Nat → List Nat
  | .qdd _ k _, _ => List.range k
  | _, qs => qs

/-- The circuit with its `QDDGate`s moved to the lowest qubits. -/
def moved (c : Circ) : Circ := { c with data := c.data.map fun x => { x with qargs := readArgs x.op x.qargs } }

/-- A condition as the backend reads it: of a register, that clbit `i` of the circuit has the value of bit `i` of `v`, for
every clbit of the register (it should be the bit at the position of the clbit in the register). -/
def CondAs : Option Cond → Option Cond → Prop
  | none, d => d = none
  | some (.bit c v), d => d = some (.bit c v)
  | some (.reg cs v), d => ∃ d', d = some d' ∧ ∀ val : Nat → Bool, d'.holds val = true ↔ ∀ i ∈ cs, val i = v.testBit i

open Classical in
/-- An instruction as the backend reads it: controls are closed, whatever their `ctrl_state`; `QDDGate`s are on the lowest
qubits; conditions as above; if the
circuit was classified as stable (`st`), measurements are unconditional. -/
structure InstAs (st : Bool) (x y : Inst) : Prop where
  op : y.op = closeOp x.op
  qargs : y.qargs = readArgs x.op x.qargs
  cargs : y.cargs = x.cargs
  cond : if st = true ∧ x.op = .measure then y.cond = none else CondAs x.cond y.cond

/-- `c'` is `c` as the backend reads it. -/
structure ReadAs (c c' : Circ) : Prop where
  nq : c'.nq = c.nq
  nc : c'.nc = c.nc
  phase : c'.phase = c.phase
  data : List.Forall₂ (InstAs (classify c).stable) c.data c'.data

/-- What the backend can run at all: no `UnitaryGate` (C07) or unknown instruction; `QDDGate`s hold an isometry of at most
`n` qubits. -/
def Op.Runs (n : Nat) (ms : List (Mat ℝ)) : Op → Prop
  | .gate _ _ => True
  | .qdd hd k M => (Op.qdd hd k M).Fine n ms (List.range k)
  | .barrier | .measure | .reset => True
  | .unitary | .other => False

/-! ### Such a circuit -/

/-- Clbits can be put in an order in which the backend's reading of a value agrees with the right one. -/
theorem reorder {cs : List Nat} {v : Nat} (hn : cs.Nodup) (hv : v < 2 ^ cs.length) : ∃ cs' v', cs'.Nodup ∧ (∀ i, i ∈ cs' ↔ i ∈ cs) ∧
    v' < 2 ^ cs'.length ∧ (Cond.reg cs' v').Aligned ∧ ∀ i ∈ cs, v'.testBit i = v.testBit i := by
  classical
  obtain ⟨g, hg⟩ := Finset.exists_equiv_extend_of_card_eq (α := Fin cs.length) (t := cs.toFinset)
    (by rw [Fintype.card_fin, List.toFinset_card_of_nodup hn]) (s := univ.filter fun i : Fin cs.length => i.1 ∈ cs) (f := Fin.val)
    (by
      intro x hx
      obtain ⟨i, hi, rfl⟩ := Finset.mem_image.1 hx
      exact List.mem_toFinset.2 (Finset.mem_filter.1 hi).2)
    (fun a _ b _ h => Fin.ext h)
  have hmem : ∀ i, (g i : Nat) ∈ cs := fun i => List.mem_toFinset.1 (g i).2
  set v' := Nat.ofBits fun m : Fin cs.length => decide (m.1 ∈ cs) && v.testBit m.1 with hv'
  have hlt : v' < 2 ^ cs.length := Nat.ofBits_lt_two_pow _
  have hbit : ∀ m, m < cs.length → v'.testBit m = (decide (m ∈ cs) && v.testBit m) := fun m hm => Nat.testBit_ofBits_lt _ _ hm
  have hbig : ∀ m, cs.length ≤ m → v'.testBit m = false := fun m hm =>
    Nat.testBit_lt_two_pow (lt_of_lt_of_le hlt (Nat.pow_le_pow_right (by omega) hm))
  refine ⟨List.ofFn fun i => (g i : Nat), v', ?_, ?_, by rw [List.length_ofFn]; exact hlt, ?_, ?_⟩
  · rw [List.nodup_ofFn]
    intro a b h
    exact g.injective (Subtype.ext h)
  · intro i
    rw [List.mem_ofFn]
    constructor
    · rintro ⟨m, rfl⟩; exact hmem m
    · intro hi
      exact ⟨g.symm ⟨i, List.mem_toFinset.2 hi⟩, by rw [Equiv.apply_symm_apply]⟩
  · intro m hm
    rw [List.length_ofFn] at hm
    rw [List.getElem_ofFn]
    by_cases hc : m ∈ cs
    · rw [hg ⟨m, hm⟩ (by simp [hc])]
    · rw [hbit m hm]
      simp only [hc, decide_false, Bool.false_and]
      by_cases hl : (g ⟨m, hm⟩ : Nat) < cs.length
      · have h1 := hg ⟨_, hl⟩ (by simpa using hmem ⟨m, hm⟩)
        have h2 : g ⟨_, hl⟩ = g ⟨m, hm⟩ := Subtype.ext h1
        have h3 := congrArg Fin.val (g.injective h2)
        dsimp only at h3
        exact absurd (h3 ▸ hmem ⟨m, hm⟩) hc
      · exact hbig _ (by omega)
  · intro i hi
    by_cases hl : i < cs.length
    · rw [hbit i hl]; simp [hi]
    · rw [hbig i (by omega), Nat.testBit_lt_two_pow (lt_of_lt_of_le hv (Nat.pow_le_pow_right (by omega) (by omega)))]

open Classical in
/-- A condition as the backend reads it. -/
noncomputable def readCond : Cond → Cond
  | .bit c v => .bit c v
  | .reg cs v => if h : cs.Nodup ∧ v < 2 ^ cs.length then .reg (reorder h.1 h.2).choose (reorder h.1 h.2).choose_spec.choose else .reg cs v

theorem readCond_reg {cs : List Nat} {v : Nat} (hn : cs.Nodup) (hv : v < 2 ^ cs.length) : ∃ cs' v', readCond (.reg cs v) = .reg cs' v' ∧
    cs'.Nodup ∧ (∀ i, i ∈ cs' ↔ i ∈ cs) ∧ v' < 2 ^ cs'.length ∧ (Cond.reg cs' v').Aligned ∧ ∀ i ∈ cs, v'.testBit i = v.testBit i := by
  refine ⟨_, _, dif_pos ⟨hn, hv⟩, (reorder hn hv).choose_spec.choose_spec⟩

theorem skips_readCond {nc : Nat} {c : Cond} (hc : c.wf nc) (val : List Bool) : skips val (some (readCond c)) = skips val (some c) := by
  cases c with
  | bit c v => rfl
  | reg cs v =>
    obtain ⟨cs', v', e, h1, h2, h3, h4, h5⟩ := readCond_reg hc.1 hc.2.2
    rw [e]
    have a := skips_reg val cs' v'
    have b := skips_reg val cs v
    have : (∀ i ∈ cs', look val i = v'.testBit i) ↔ ∀ i ∈ cs, look val i = v.testBit i := by
      refine forall_congr' fun i => ?_
      rw [h2]
      refine forall_congr' fun hi => ?_
      rw [h5 i hi]
    rw [this, ← b] at a
    rw [Bool.eq_iff_iff]
    cases h : skips val (some (.reg cs v)) <;> cases h' : skips val (some (.reg cs' v')) <;> simp_all

/-- The instruction with its controls closed, its qubits and condition as read, and, if `u`, without condition when it is a
measurement. -/
noncomputable def asRunI (u : Bool) (x : Inst) : Inst where
  op := closeOp x.op
  qargs := readArgs x.op x.qargs
  cargs := x.cargs
  cond := match x.op with
    | .measure => if u then none else x.cond.map readCond
    | _ => x.cond.map readCond

/-- The circuit the backend runs. -/
noncomputable def asRun (c : Circ) : Circ := { c with data := c.data.map (asRunI (classify c).stable) }

theorem propStep_asRun (u : Bool) (x : Inst) (s : CircProp) :
    propStep (asRunI u x) s = propStep { x with qargs := readArgs x.op x.qargs } s := by
  obtain ⟨op, qargs, cargs, cond⟩ := x
  cases op <;> simp [propStep, asRunI, closeOp, destabilises, readArgs]

theorem propLoop_asRun (u : Bool) : ∀ (xs : List Inst) (s : CircProp), propLoop (xs.map (asRunI u)) s =
    propLoop (xs.map fun x => { x with qargs := readArgs x.op x.qargs }) s := by
  intro xs
  induction xs with
  | nil => intro s; rfl
  | cons x xs ih =>
    intro s
    rw [List.map_cons, List.map_cons, propLoop, propLoop, propStep_asRun]
    simp only [ih]

theorem classify_asRun (c : Circ) : classify (asRun c) = classify (moved c) := propLoop_asRun _ _ _

/-- Nothing is moved if the `QDDGate`s are on the lowest qubits. -/
theorem moved_eq {c : Circ} (h : ∀ x ∈ c.data, readArgs x.op x.qargs = x.qargs) : moved c = c := by
  unfold moved
  obtain ⟨nq, nc, phase, data⟩ := c
  congr 1
  conv_rhs => rw [← List.map_id data]
  refine List.map_congr_left fun x hx => ?_
  have := h x hx
  obtain ⟨op, qargs, cargs, cond⟩ := x
  dsimp only at this
  rw [this]
  rfl

theorem instr_asRun (n : Nat) {nc : Nat} (u st sh : Bool) (hu : u = true → st = true) (x : Inst) (hx : ∀ c, x.cond = some c → c.wf nc)
    (s : Loc) (k : Loc → Client α) : instr n st sh (asRunI u x) s k = instr n st sh x s k := by
  have hsk : ∀ val, skips val (x.cond.map readCond) = skips val x.cond := by
    intro val
    cases hc : x.cond with
    | none => rfl
    | some c => exact skips_readCond (hx c hc) val
  obtain ⟨op, qargs, cargs, cond⟩ := x
  dsimp only at hsk
  cases op with
  | measure =>
    cases u with
    | false => simp [instr, asRunI, closeOp, readArgs, hsk]
    | true =>
      have := hu rfl
      subst this
      unfold instr asRunI
      simp [skips, closeOp]
  | _ => simp [instr, asRunI, closeOp, readArgs, hsk]

theorem insts_asRun (n : Nat) {nc : Nat} (u st sh : Bool) (hu : u = true → st = true) : ∀ (xs : List Inst)
    (hx : ∀ x ∈ xs, ∀ c, x.cond = some c → c.wf nc) (s : Loc) (k : Loc → Client α),
    insts n st sh (xs.map (asRunI u)) s k = insts n st sh xs s k := by
  intro xs
  induction xs with
  | nil => intro _ s k; rfl
  | cons x xs ih =>
    intro hx s k
    rw [List.map_cons, insts, insts, instr_asRun n u st sh hu x (hx x (by simp))]
    simp only [ih fun x h => hx x (by simp [h])]

theorem trip_asRun {nc : Nat} (c : Circ) (hx : ∀ x ∈ c.data, ∀ c, x.cond = some c → c.wf nc) (u st sh : Bool) (hu : u = true → st = true) (pc : List ℝ) (k : Loc → Client α) :
    trip { c with data := c.data.map (asRunI u) } st sh pc k = trip c st sh pc k := by
  unfold trip
  dsimp only
  simp only [insts_asRun c.nq u st sh hu c.data hx]

theorem shotLoop_asRun {nc : Nat} (c : Circ) (hx : ∀ x ∈ c.data, ∀ c, x.cond = some c → c.wf nc) : ∀ (r : Nat) (s : Loc) (acc) (k : Loc → List (List Bool) → Client α),
    shotLoop { c with data := c.data.map (asRunI false) } r s acc k = shotLoop c r s acc k := by
  intro r
  induction r with
  | zero => intro s acc k; rfl
  | succ r ih =>
    intro s acc k
    rw [shotLoop, shotLoop, trip_asRun c hx false false true (by simp)]
    simp only [ih]

theorem sampleLoop_asRun (c : Circ) (xs : List Inst) (fin) : ∀ (r cur : Nat) (acc) (k : List (List Bool) → Client α),
    Py.sampleLoop { c with data := xs } fin r cur acc k = Py.sampleLoop c fin r cur acc k := by
  intro r
  induction r with
  | zero => intro cur acc k; rfl
  | succ r ih =>
    intro cur acc k
    rw [Py.sampleLoop, Py.sampleLoop]
    simp only [ih]

/-- With shots, the backend does exactly the same for a circuit and for the one it reads it as. -/
theorem run_asRun {nc : Nat} (c : Circ) (hcl : classify (moved c) = classify c) (hx : ∀ x ∈ c.data, ∀ c, x.cond = some c → c.wf nc) {o : Opts} {s : Nat} (hs : o.shots = some s) : run (asRun c) o = run c o := by
  unfold run circProp
  rw [show propLoop (asRun c).data ⟨true, [], []⟩ = propLoop c.data ⟨true, [], []⟩ from (classify_asRun c).trans hcl]
  rw [show (asRun c).nq = c.nq from rfl]
  by_cases hn : 100 < c.nq
  · simp [hn]
  · rw [if_neg hn]
    dsimp only
    split
    · rfl
    · next cp hcp =>
      have hcp : propLoop c.data ⟨true, [], []⟩ = cp := by
        revert hcp; split
        · intro h; cases h
        · intro h; exact Option.some.inj h
      unfold evaluate
      rw [hs]
      dsimp only
      unfold asRun
      rw [show (classify c).stable = cp.stable from congrArg CircProp.stable hcp]
      cases hst : cp.stable with
      | true =>
        simp only [if_true]
        rw [trip_asRun c hx true true true (by simp)]
        simp only [sampleLoop_asRun]
      | false =>
        simp only [Bool.false_eq_true, if_false]
        rw [shotLoop_asRun c hx]

theorem closed_closeOp (g : GName) (ctl : List Bool) : Py.Closed (ctl.map fun _ => true) := by
  intro b hb
  obtain ⟨_, _, rfl⟩ := List.mem_map.1 hb
  rfl

theorem readCond_wf {nc : Nat} {c : Cond} (hc : c.wf nc) : (readCond c).wf nc ∧ (readCond c).Aligned := by
  cases c with
  | bit c v => exact ⟨hc, trivial⟩
  | reg cs v =>
    obtain ⟨cs', v', e, h1, h2, h3, h4, h5⟩ := readCond_reg hc.1 hc.2.2
    rw [e]
    exact ⟨⟨h1, fun i hi => hc.2.1 i ((h2 i).1 hi), h3⟩, h4⟩

theorem asRunI_cond {u : Bool} {x : Inst} {c : Cond} (h : (asRunI u x).cond = some c) : ∃ d, x.cond = some d ∧ c = readCond d := by
  have : (asRunI u x).cond = none ∨ (asRunI u x).cond = x.cond.map readCond := by
    obtain ⟨op, qargs, cargs, cond⟩ := x
    cases op <;> cases u <;> simp [asRunI]
  rcases this with e | e
  · rw [e] at h; cases h
  · rw [e] at h
    obtain ⟨d, h1, h2⟩ := Option.map_eq_some_iff.1 h
    exact ⟨d, h1, h2.symm⟩

theorem asRunI_fine {u : Bool} {n nc : Nat} {ms : List (Mat ℝ)} {x : Inst} (hw : x.WF n nc) (hr : Op.Runs n ms x.op) :
    Fine n nc ms (asRunI u x) where
  distinct := by
    show (readArgs x.op x.qargs).Nodup
    cases h : x.op
    case qdd hd k M => exact List.nodup_range
    all_goals exact hw.distinct
  qubits := by
    show ∀ q ∈ readArgs x.op x.qargs, q < n
    cases h : x.op <;> rw [h] at hr
    case qdd hd k M =>
      intro q hq
      exact lt_of_lt_of_le (List.mem_range.1 hq) hr.2.1
    all_goals exact hw.qubits
  clbits := hw.clbits
  arity := by
    have := hw.arity
    show (closeOp x.op).arity (readArgs x.op x.qargs) x.cargs
    cases h : x.op <;> rw [h] at this
    case qdd hd k M => exact ⟨this.1, List.length_range⟩
    case gate g ctl => exact ⟨this.1, by rw [List.length_map]; exact this.2⟩
    all_goals exact this
  cond := by
    intro c hc
    obtain ⟨d, h1, rfl⟩ := asRunI_cond hc
    exact (readCond_wf (hw.cond d h1)).1
  op := by
    show (closeOp x.op).Fine n ms (readArgs x.op x.qargs)
    cases h : x.op <;> rw [h] at hr
    case gate g ctl => exact closed_closeOp g ctl
    all_goals exact hr
  aligned := by
    intro c hc
    obtain ⟨d, h1, rfl⟩ := asRunI_cond hc
    exact (readCond_wf (hw.cond d h1)).2

theorem readCond_holds {nc : Nat} {cs : List Nat} {v : Nat} (hc : (Cond.reg cs v).wf nc) (val : Nat → Bool) :
    (readCond (.reg cs v)).holds val = true ↔ ∀ i ∈ cs, val i = v.testBit i := by
  obtain ⟨cs', v', e, h1, h2, h3, h4, h5⟩ := readCond_reg hc.1 hc.2.2
  rw [e, Cond.holds, decide_eq_true_eq, regValue_iff _ _ _ h3]
  constructor
  · intro h i hi
    obtain ⟨m, hm, rfl⟩ := List.getElem_of_mem ((h2 i).2 hi)
    rw [h m hm, ← h4 m hm, h5 _ hi]
  · intro h m hm
    have hi := (h2 _).1 (List.getElem_mem hm)
    rw [h _ hi, ← h5 _ hi, h4 m hm]

theorem asRunI_as {u : Bool} {n nc : Nat} {x : Inst} (hw : x.WF n nc) : InstAs u x (asRunI u x) where
  op := rfl
  qargs := rfl
  cargs := rfl
  cond := by
    have hgen : CondAs x.cond (x.cond.map readCond) := by
      rcases hc : x.cond with _ | ⟨c, v⟩ | ⟨cs, v⟩
      · rfl
      · rfl
      · obtain ⟨cs', v', e, _⟩ := readCond_reg (hw.cond _ hc).1 (hw.cond _ hc).2.2
        refine ⟨.reg cs' v', by rw [Option.map_some, e], fun val => ?_⟩
        rw [← e]
        exact readCond_holds (hw.cond _ hc) val
    obtain ⟨op, qargs, cargs, cond⟩ := x
    cases op with
    | measure =>
      cases u with
      | true => simp [asRunI]
      | false => simpa [asRunI] using hgen
    | _ => simpa [asRunI] using hgen

/-- A reading exists. -/
theorem asRun_reads {c : Circ} (hw : ∀ x ∈ c.data, x.WF c.nq c.nc) : ReadAs c (asRun c) := by
  refine ⟨rfl, rfl, rfl, ?_⟩
  show List.Forall₂ _ c.data (c.data.map _)
  rw [List.forall₂_map_right_iff]
  exact List.forall₂_same.2 fun x hx => asRunI_as (hw x hx)

/-- Two readings of an instruction are executed under the same circumstances. -/
theorem InstAs.same {st : Bool} {x y z : Inst} (hy : InstAs st x y) (hz : InstAs st x z) :
    y.op = z.op ∧ y.qargs = z.qargs ∧ y.cargs = z.cargs ∧ ∀ val, y.enabled val = z.enabled val := by
  refine ⟨hy.op.trans hz.op.symm, hy.qargs.trans hz.qargs.symm, hy.cargs.trans hz.cargs.symm, fun val => ?_⟩
  have a := hy.cond
  have b := hz.cond
  unfold Inst.enabled
  by_cases hm : st = true ∧ x.op = .measure
  · rw [if_pos hm] at a b
    rw [a, b]
  · rw [if_neg hm] at a b
    rcases hc : x.cond with _ | ⟨c, v⟩ | ⟨cs, v⟩
    · rw [hc] at a b
      simp only [CondAs] at a b
      rw [a, b]
    · rw [hc] at a b
      simp only [CondAs] at a b
      rw [a, b]
    · rw [hc] at a b
      obtain ⟨_, a1, a2⟩ := a
      obtain ⟨_, b1, b2⟩ := b
      rw [a1, b1]
      dsimp only
      rw [Bool.eq_iff_iff, a2, b2]

theorem expect_same {n : Nat} {φ} {st : Bool} : ∀ {xs ys zs : List Inst}, List.Forall₂ (InstAs st) xs ys → List.Forall₂ (InstAs st) xs zs →
    ∀ f val, Py.expect n φ ys f val = Py.expect n φ zs f val := by
  intro xs
  induction xs with
  | nil => intro ys zs hy hz f val; cases hy; cases hz; rfl
  | cons x xs ih =>
    intro ys zs hy hz f val
    cases hy with
    | @cons _ y _ ys hxy hy =>
    cases hz with
    | @cons _ z _ zs hxz hz =>
    obtain ⟨h1, h2, h3, h4⟩ := hxy.same hxz
    have ih := fun f val => ih hy hz f val
    have ho : y.oper n = z.oper n := by unfold Inst.oper; rw [h1, h2]
    rw [Py.expect, Py.expect, h4, h1, h2, h3, ho]
    simp only [ih]

/-- All readings of a circuit have the same distribution. -/
theorem ReadAs.prob {c c' c'' : Circ} (h1 : ReadAs c c') (h2 : ReadAs c c'') (key : List Bool) : c'.prob key = c''.prob key := by
  unfold Circ.prob
  rw [h1.nq, h2.nq, h1.nc, h2.nc]
  exact expect_same h1.data h2.data _ _

/-- **C54, all circuits.**  After any history, running with `shots = s` any circuit without `UnitaryGate`, whose
classification does not change when its `QDDGate`s are moved to the lowest qubits (`moved_eq`: they are there already), returns the memory `keys` with the probability that `s` independent executions of the circuit, as the backend
reads it, give `keys`; and there is such a circuit.  So the deviations of C35, C36, C40 and C56 are the only ones. -/
theorem C54_actual (hR : Hist cfg thr thrM cs h σ os) (hsq : ∀ x, 0 ≤ x → cfg.sqrt x * cfg.sqrt x = x) {c : Circ}
    (hpos : 0 < c.nq) (hlim : c.nq ≤ NQUBITS) (hw : ∀ x ∈ c.data, x.WF c.nq c.nc) (hr : ∀ x ∈ c.data, Op.Runs c.nq h.ms x.op)
    (hcl : classify (moved c) = classify c) :
    (∃ c', ReadAs c c') ∧ ∀ c', ReadAs c c' → ∀ {o : Opts}, Measured c o → (o.saveSV = true → c.nq ≤ 30) →
      ∀ {keys : List (List Bool)}, keys ≠ [] → o.shots = some keys.length →
        Yields cfg (run c o) σ (Memory keys) ((keys.map c'.prob).prod) := by
  refine ⟨⟨_, asRun_reads hw⟩, fun c' hc' o hmd hsv keys h0 hs => ?_⟩
  have hsup : Supported h.ms (asRun c) := {
    pos := hpos
    lim := hlim
    fine := by
      intro y hy
      obtain ⟨x, hx, rfl⟩ := List.mem_map.1 hy
      exact asRunI_fine (hw x hx) (hr x hx) }
  have hcl' := (classify_asRun c).trans hcl
  have := C54_run_partial hR hsq hsup (by
    intro hst y hy hop
    rw [hcl'] at hst
    obtain ⟨x, hx, rfl⟩ := List.mem_map.1 hy
    obtain ⟨op, qargs, cargs, cond⟩ := x
    rw [hst]
    cases op <;> simp [asRunI, closeOp] at hop ⊢) (o := o) (by
      rcases hmd with h | h
      · exact .inl h
      · right; rw [hcl']; exact h) hsv h0 hs
  rw [run_asRun c hcl (fun x hx => (hw x hx).cond) hs] at this
  refine cast (congrArg _ ?_) this
  congr 1
  exact List.map_congr_left fun k _ => ReadAs.prob (asRun_reads hw) hc' k

/-! ### Cases -/

theorem unchanged_as {st : Bool} {x : Inst} (h : closeOp x.op = x.op) (hq : readArgs x.op x.qargs = x.qargs) (hc : x.cond = none) : InstAs st x x where
  op := h.symm
  qargs := hq.symm
  cargs := rfl
  cond := by split <;> simp [hc, CondAs]

/-- The readings of the circuits of `C35_false`, `C36_false` and `C56_false`. -/
theorem readings : ReadAs condMeasure ⟨1, 1, 0, [xI 0, mI 0 0]⟩ ∧ ReadAs offsetReg offsetReg' ∧ ReadAs openCtrl openCtrl' := by
  refine ⟨⟨rfl, rfl, rfl, .cons (unchanged_as rfl rfl rfl) (.cons ⟨rfl, rfl, rfl, ?_⟩ .nil)⟩,
    ⟨rfl, rfl, rfl, .cons (unchanged_as rfl rfl rfl) (.cons (unchanged_as rfl rfl rfl) (.cons ⟨rfl, rfl, rfl, ?_⟩ (.cons (unchanged_as rfl rfl rfl) .nil)))⟩,
    ⟨rfl, rfl, rfl, .cons ⟨rfl, rfl, rfl, ?_⟩ (.cons (unchanged_as rfl rfl rfl) .nil)⟩⟩
  · rw [if_pos ⟨rfl, rfl⟩]; rfl
  · rw [if_neg (by rintro ⟨_, h⟩; cases h)]
    refine ⟨.bit 1 0, rfl, fun val => ?_⟩
    have h2 : Nat.testBit 1 1 = false := by decide
    simp [Cond.holds, h2]
  · rw [if_neg (by rintro ⟨_, h⟩; cases h)]; rfl

/-- A run of a circuit with a condition on a register at offset 1 is a run of the circuit it is read as. -/
example (hR : Hist cfg thr thrM cs h σ os) (hsq : ∀ x, 0 ≤ x → cfg.sqrt x * cfg.sqrt x = x) (k1 k2 : List Bool) :
    Yields cfg (run offsetReg ⟨some 2, false⟩) σ (Memory [k1, k2]) (offsetReg'.prob k1 * (offsetReg'.prob k2 * 1)) :=
  (C54_actual hR hsq (c := offsetReg) (by decide) (by decide) offsetReg_wf (by
    intro x hx
    simp only [offsetReg, List.mem_cons, List.mem_nil_iff, or_false] at hx
    rcases hx with rfl | rfl | rfl | rfl <;> trivial) rfl).2 _ readings.2.1 (.inr (by decide)) (by simp) (keys := [k1, k2]) (by simp) rfl

end QDD.Props
