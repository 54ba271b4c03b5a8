import Verif.Props.Swap
import Verif.Props.Actual
/-!
# Automatic swapping of circuits the backend misreads (C39)
-/

set_option linter.unusedSectionVars false
set_option linter.unusedVariables false
set_option linter.unusedSimpArgs false

namespace QDD.Props
open Spec Api Gate Finset Py Py.Client

theorem ahead_map (lim : Nat) (f : Inst → Inst) : ∀ (xs : List Inst) (hf : ∀ x ∈ xs, (f x).qargs = x.qargs) (s : Finset Nat),
    ahead lim (xs.map f) s = ahead lim xs s := by
  intro xs
  induction xs with
  | nil => intro _ s; rfl
  | cons x xs ih =>
    intro hf s
    rw [List.map_cons, ahead, ahead, hf x (by simp)]
    simp only [ih fun y hy => hf y (by simp [hy])]

theorem autoSwap_map (n : Nat) (f : Inst → Inst) {data : List Inst} (hf : ∀ x ∈ data, (f x).qargs = x.qargs) (pop : Finset Nat → Nat)
    (v2 : Bool) (qargs : List Nat) (s : MSt) : autoSwap n (data.map f) pop v2 qargs s = autoSwap n data pop v2 qargs s := by
  have h : ∀ lim s count, ahead lim ((data.map f).drop count) s = ahead lim (data.drop count) s := by
    intro lim s count
    rw [← List.map_drop]
    exact ahead_map lim f _ (fun x hx => hf x (List.mem_of_mem_drop hx)) s
  unfold autoSwap swapV1 swapV2
  simp only [h]

theorem mpiInstr_asRun (n : Nat) {nc : Nat} {data : List Inst} (hf : ∀ x ∈ data, readArgs x.op x.qargs = x.qargs)
    (pop : Finset Nat → Nat) (v2 u st : Bool) (hu : u = true → st = true) {x : Inst} (hx : ∀ c, x.cond = some c → c.wf nc)
    (hq : readArgs x.op x.qargs = x.qargs) (b : Bool) (s : MSt) :
    mpiInstr n (data.map (asRunI u)) pop v2 st (asRunI u x) b s = mpiInstr n data pop v2 st x b s := by
  have hsk : ∀ val, skips val (x.cond.map readCond) = skips val x.cond := by
    intro val
    cases hc : x.cond with
    | none => rfl
    | some c => exact skips_readCond (hx c hc) val
  have ha := autoSwap_map n (asRunI u) hf pop v2
  obtain ⟨op, qargs, cargs, cond⟩ := x
  dsimp only at hsk hq
  cases op with
  | measure =>
    cases u with
    | false => simp [mpiInstr, asRunI, closeOp, readArgs, hsk, ha]
    | true =>
      have := hu rfl
      subst this
      unfold mpiInstr asRunI
      simp [skips, closeOp]
  | _ => simp [mpiInstr, asRunI, closeOp, hsk, ha, hq]

theorem mpiInsts_asRun (n : Nat) {nc : Nat} {data : List Inst} (hf : ∀ x ∈ data, readArgs x.op x.qargs = x.qargs)
    (pop : Finset Nat → Nat) (v2 u st : Bool) (hu : u = true → st = true) : ∀ (l : List (Inst × Bool))
    (hx : ∀ p ∈ l, (∀ c, p.1.cond = some c → c.wf nc) ∧ readArgs p.1.op p.1.qargs = p.1.qargs) (s : MSt),
    mpiInsts n (data.map (asRunI u)) pop v2 st (l.map (Prod.map (asRunI u) id)) s = mpiInsts n data pop v2 st l s := by
  intro l
  induction l with
  | nil => intro _ s; rfl
  | cons p l ih =>
    intro hx s
    obtain ⟨x, b⟩ := p
    obtain ⟨h1, h2⟩ := hx _ List.mem_cons_self
    show Option.bind _ _ = Option.bind _ _
    rw [show mpiInstr n (data.map (asRunI u)) pop v2 st (asRunI u x) (id b) s = _ from mpiInstr_asRun n hf pop v2 u st hu h1 h2 b s]
    congr 1
    funext s'
    exact ih (fun q hq => hx q (List.mem_cons_of_mem _ hq)) s'

theorem mpiShots_asRun (c : Circ) (hw : ∀ x ∈ c.data, x.WF c.nq c.nc) (hq : ∀ x ∈ c.data, readArgs x.op x.qargs = x.qargs)
    (g : Nat) (pop : Finset Nat → Nat) (v2 u st : Bool) (hu : u = true → st = true) : ∀ (os : List (List Bool)) (s : MSt),
    mpiShots { c with data := c.data.map (asRunI u) } g pop v2 st os s = mpiShots c g pop v2 st os s := by
  intro os
  induction os with
  | nil => intro s; rfl
  | cons o os ih =>
    intro s
    rw [mpiShots, mpiShots]
    simp only [List.zip_map_left, ih]
    rw [mpiInsts_asRun (nc := c.nc) c.nq hq pop v2 u st hu _ (fun p hp => by
      have := (List.of_mem_zip (a := p.1) (b := p.2) hp).1
      exact ⟨(hw _ this).cond, hq _ this⟩)]

theorem mpiRun_asRun (c : Circ) (hw : ∀ x ∈ c.data, x.WF c.nq c.nc) (hq : ∀ x ∈ c.data, readArgs x.op x.qargs = x.qargs)
    (g : Nat) (pop : Finset Nat → Nat) (v2 : Bool) (os : List (List Bool)) :
    mpiRun (asRun c) g pop v2 (classify c).stable os = mpiRun c g pop v2 (classify c).stable os := by
  unfold mpiRun asRun
  dsimp only
  rw [mpiShots_asRun c hw hq g pop v2 _ _ id]

/-- Trajectories of two readings of a circuit are the same. -/
theorem traj_same {n : Nat} {st defer : Bool} : ∀ {xs ys zs : List Inst}, List.Forall₂ (InstAs st) xs ys → List.Forall₂ (InstAs st) xs zs →
    ∀ (o : List Bool) (s : (Nat → CR) × (Nat → Bool)), traj n defer (ys.zip o) s = traj n defer (zs.zip o) s := by
  intro xs
  induction xs with
  | nil => intro ys zs hy hz o s; cases hy; cases hz; rfl
  | cons x xs ih =>
    intro ys zs hy hz o s
    cases hy with
    | @cons _ y _ ys hxy hy =>
    cases hz with
    | @cons _ z _ zs hxz hz =>
    cases o with
    | nil => rfl
    | cons b o =>
    obtain ⟨f, val⟩ := s
    obtain ⟨h1, h2, h3, h4⟩ := hxy.same hxz
    have ih := ih hy hz o
    have ho : y.oper n = z.oper n := by unfold Inst.oper; rw [h1, h2]
    rw [List.zip_cons_cons, List.zip_cons_cons, traj, traj, h4, h1, h2, h3, ho]
    simp only [ih]

/-- **C39, all circuits.**  For any circuit without `UnitaryGate` and misplaced `QDDGate`s, whatever its control states and
conditions: a run with automatic swapping raises nothing; the clbits of every shot and the final state are those of
executing the circuit, as the backend reads it (`ReadAs`), without swapping, with the same outcomes. -/
theorem C39_actual {c : Circ} (h0 : 0 < c.nq) {ms : List (Mat ℝ)} (hw : ∀ x ∈ c.data, x.WF c.nq c.nc)
    (hr : ∀ x ∈ c.data, Op.Runs c.nq ms x.op) (hq : ∀ x ∈ c.data, readArgs x.op x.qargs = x.qargs) {pop : Finset Nat → Nat}
    (hpop : ∀ s : Finset Nat, s.Nonempty → pop s ∈ s) (v2 : Bool) (g : Nat) (os : List (List Bool)) {c' : Circ} (hc' : ReadAs c c') :
    let st := (classify c).stable
    ∃ cur d, mpiRun c g pop v2 st os =
        some (cur, d, os.map fun o => (List.range c.nc).map (traj c.nq st (c'.data.zip o) (zeroState, fun _ => false)).2) ∧
      (∀ q < c.nq, d q = q) ∧
      ∀ o, os.getLast? = some o → ∀ i < 2 ^ c.nq, cur i = (traj c.nq st (c'.data.zip o) (zeroState, fun _ => false)).1 i := by
  have := C39_run (c := asRun c) h0 (ms := ms) (by
    intro y hy
    obtain ⟨x, hx, rfl⟩ := List.mem_map.1 hy
    exact asRunI_fine (hw x hx) (hr x hx)) hpop v2 g os
  rw [classify_asRun, moved_eq hq] at this
  dsimp only at this
  rw [mpiRun_asRun c hw hq] at this
  have e : ∀ o, traj c.nq (classify c).stable ((asRun c).data.zip o) (zeroState, fun _ => false) =
      traj c.nq (classify c).stable (c'.data.zip o) (zeroState, fun _ => false) :=
    fun o => traj_same (asRun_reads hw).data hc'.data o _
  simp only [show (asRun c).nq = c.nq from rfl, show (asRun c).nc = c.nc from rfl, e] at this
  exact this

/-- The circuit with a register at clbit 1, one of its two qubits global: swapping changes nothing about how it is misread. -/
example (os : List (List Bool)) : ∃ cur d, mpiRun offsetReg 1 (fun s => if h : s.Nonempty then s.min' h else 0) true (classify offsetReg).stable os =
    some (cur, d, os.map fun o => (List.range offsetReg.nc).map
      (traj offsetReg.nq (classify offsetReg).stable (offsetReg'.data.zip o) (zeroState, fun _ => false)).2) := by
  obtain ⟨cur, d, h, _⟩ := C39_actual (c := offsetReg) (by decide) (ms := []) offsetReg_wf (by
    intro x hx
    simp only [offsetReg, List.mem_cons, List.mem_nil_iff, or_false] at hx
    rcases hx with rfl | rfl | rfl | rfl <;> trivial) (by
    intro x hx
    simp only [offsetReg, List.mem_cons, List.mem_nil_iff, or_false] at hx
    rcases hx with rfl | rfl | rfl | rfl <;> rfl) (pop := fun s => if h : s.Nonempty then s.min' h else 0) (fun s hs => by
    rw [dif_pos hs]; exact s.min'_mem hs) true 1 os readings.2.1
  exact ⟨cur, d, h⟩

end QDD.Props
