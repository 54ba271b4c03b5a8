import Verif.Safe.Nan
import Verif.Api.Main
import Mathlib.Data.Rat.Floor
/-!
# C17: memory safety, whatever the rounding
-/

set_option linter.unusedSectionVars false
set_option linter.unusedVariables false

namespace QDD.Props
open QDD.Safe Prog

section generic
variable {R W : Type} [WOps W] [ROps R W] [RoundW W] [RoundR R W]

/-- **C17.**  After any history of calls that respect the documented preconditions, under any schedules, for every hash
function and every uninitialised memory content, a further such call cannot reach an error state (an access to memory that
holds no node, an index out of range, a failed assertion, an integer overflow); wherever a schedule has got to, the call
can still be completed; and it does complete.  Only the laws of `RoundW` and `RoundR` are assumed of the arithmetic. -/
theorem C17_memory_safe {env : Env W} {mt : Bool} {thr thrM : Nat} {cs : List (Safe.Call R W)} {sh : Shape}
    {σ : Safe.Sys R W} (h : Safe.Hist env mt thr thrM cs sh σ) {c : Safe.Call R W} (hp : Safe.pre sh σ.d c) :
    ¬ Safe.CanFault env mt σ c ∧
    (c.seq = false → ∀ fk p s, Steps (Safe.prog env mt fk σ.d c) σ.st p s → ∃ a s', Steps p s (Prog.ret a) s') ∧
    ∃ o σ', Safe.Exec env mt σ c o σ' := by
  have hg := h.good
  refine ⟨?_, fun hc fk p s hs => ((conc_total mt fk hg hc hp).1 p s hs).2, ?_⟩
  · intro hf
    cases hf with
    | conc hc hs hf => exact ((conc_total mt _ hg hc hp).1 _ _ hs).1 hf
    | seq hc hs =>
      obtain ⟨a, s', h1, _⟩ := seq_runs mt _ hg hc hp
      rw [hs] at h1; cases h1
  · cases hc : c.seq with
    | false =>
      obtain ⟨⟨d, o⟩, s', hs⟩ := ((conc_total mt (fun _ => false) hg hc hp).1 _ _ .refl).2
      exact ⟨o, ⟨d, s'⟩, .conc hc hs⟩
    | true =>
      obtain ⟨⟨d, o⟩, s', hs, _⟩ := seq_runs mt (fun _ => false) hg hc hp
      exact ⟨o, ⟨d, s'⟩, .seq hc hs⟩

end generic

open Rounding

/-- **C17** for `struct Complex` of dd.h with a rounding after every operation: every rounding function that is idempotent,
monotone, symmetric and exact on 1, every tolerance below one, every `sqrt`. -/
theorem C17_rounded {K : Type} [Field K] [LinearOrder K] [IsStrictOrderedRing K] (ρ : Rounding K) {tol : K}
    (h0 : 0 ≤ tol) (h1 : tol < 1) (sqrt : ρ.Num → ρ.Num) {env : Env (FCx ρ tol)} {mt : Bool} {thr thrM : Nat}
    {cs : List (Safe.Call ρ.Num (FCx ρ tol))} {sh : Shape} {σ : Safe.Sys ρ.Num (FCx ρ tol)}
    (h : @Safe.Hist _ _ _ (measOps ρ tol sqrt) env mt thr thrM cs sh σ) {c : Safe.Call ρ.Num (FCx ρ tol)}
    (hp : @Safe.pre _ _ (measOps ρ tol sqrt) sh σ.d c) :
    ¬ @Safe.CanFault _ _ _ (measOps ρ tol sqrt) env mt σ c ∧
    (c.seq = false → ∀ fk p s, Steps (@Safe.prog _ _ _ (measOps ρ tol sqrt) env mt fk σ.d c) σ.st p s →
      ∃ a s', Steps p s (Prog.ret a) s') ∧
    ∃ o σ', @Safe.Exec _ _ _ (measOps ρ tol sqrt) env mt σ c o σ' := by
  letI := measOps ρ tol sqrt
  letI := roundW ρ h0 h1
  haveI := roundR ρ h0 h1 sqrt
  exact C17_memory_safe h hp

/-- **C17** for exact arithmetic, from the correctness theorem. -/
theorem C17_exact {K : Type} [Field K] [LinearOrder K] [IsStrictOrderedRing K] {cfg : Api.Cfg K} {thr thrM : Nat}
    {cs h σ os} (hR : Api.Hist cfg thr thrM cs h σ os) {c : Spec.Cmd K} (hp : Spec.pre NQUBITS h c) {h' o'}
    (hs : Spec.step cfg.sqrt h c = some (h', o')) : ¬ Api.CanFault cfg σ c :=
  (hR.returns hp hs).noFault

/-! ## NaN -/

/-- A call that respects its precondition and runs to completion extends the history. -/
theorem hist_run1 {R W : Type} [WOps W] [ROps R W] {env : Env W} {thr thrM : Nat} {cs : List (Safe.Call R W)} {sh : Shape}
    {σ : Safe.Sys R W} (h : Safe.Hist env false thr thrM cs sh σ) {c : Safe.Call R W} (hp : Safe.pre sh σ.d c)
    {o σ'} (hr : run1 env c σ = .ok (o, σ')) : Safe.Hist env false thr thrM (cs ++ [c]) (sh.after c) σ' :=
  .call h hp (exec_run1 hr)

/-- A list of calls run one after the other on one thread. -/
theorem hist_runAll {R W : Type} [WOps W] [ROps R W] {env : Env W} {thr thrM : Nat} : ∀ {ds cs : List (Safe.Call R W)}
    {sh : Shape} {σ σ' : Safe.Sys R W}, Safe.Hist env false thr thrM cs sh σ → runAll env ds σ = .ok σ' →
    (∀ (i : Nat) (d : Safe.Data R W) c, ds[i]? = some c → Safe.pre ((ds.take i).foldl Shape.after sh) d c) →
    Safe.Hist env false thr thrM (cs ++ ds) (ds.foldl Shape.after sh) σ' := by
  intro ds
  induction ds with
  | nil => intro cs sh σ σ' h hr _; cases hr; rw [List.append_nil]; exact h
  | cons c ds ih =>
    intro cs sh σ σ' h hr hp
    unfold runAll at hr
    rcases h1 : run1 env c σ with er | ⟨o, σ1⟩
    · rw [h1] at hr; cases hr
    · rw [h1] at hr
      have := ih (hist_run1 h (hp 0 σ.d c rfl) h1) hr fun i d c' hc => hp (i + 1) d c' hc
      rwa [List.append_assoc] at this

/-- The no-NaN assumption cannot be dropped: in the arithmetic extended with NaN, the product of a one-qubit gate and a
state that is the terminal edge with weight NaN fails the assertion at dd.cpp 1379. -/
theorem C17_nan_counterexample : ∃ σ : Safe.Sys NR NW,
    Safe.Hist nanEnv false 5 5 nanCalls ⟨[1, 1, 1], [1, 1]⟩ σ ∧ Safe.pre ⟨[1, 1, 1], [1, 1]⟩ σ.d (.mv 1 2) ∧
    Safe.CanFault nanEnv false σ (.mv 1 2) := by
  have ht := nanTest_eq
  unfold nanTest at ht
  rcases hr : runAll nanEnv nanCalls (Safe.Sys.init 5 5) with er | σ
  · rw [hr] at ht; cases ht
  rw [hr] at ht
  refine ⟨σ, ?_, ⟨1, 1, rfl, rfl, le_rfl⟩, ?_⟩
  · refine hist_runAll .init hr ?_
    intro i d c hc
    match i with
    | 0 => cases hc; exact ⟨by decide, by decide⟩
    | 1 => cases hc; exact ⟨by decide, by decide⟩
    | 2 => cases hc; exact ⟨1, 1, rfl, rfl, le_rfl⟩
    | 3 => cases hc; exact (show 1 < 2 by decide)
    | 4 => cases hc; exact ⟨by decide, by decide⟩
    | n + 5 => simp at hc
  · rcases h1 : run1 nanEnv (.mv 1 2) σ with er | x
    · exact fault_run1 h1
    · simp only [h1] at ht; cases ht

/-! ## Hypotheses are met -/

/-- 53-bit significands, toward zero; tolerance `1024 * 2^-52` (dd.h 30). -/
abbrev dbl : Rounding ℚ := toZero 52
abbrev DC : Type := FCx dbl (1 / 2 ^ 42 : ℚ)
@[reducible] instance : ROps dbl.Num DC := measOps dbl (1 / 2 ^ 42) id

def dblEnv : Env DC := ⟨fun _ => 0, fun _ => 0, fun _ _ => 0, fun _ _ => 0, fun _ => 0, fun _ _ _ => false, fun _ _ _ => false⟩

/-- `1 / sqrt 2` to 16 digits, rounded. -/
def dblH : Nat → Nat → DC := fun r c => ⟨dbl.rnd (if r = 1 ∧ c = 1 then -7071067811865475 / 10^16 else 7071067811865475 / 10^16), f0⟩

def dblCalls : List (Safe.Call dbl.Num DC) :=
  [.zero 2, .gate 2 dblH 0 [], .cx 2 1 0, .mv 0 0, .mv 1 1, .mmul 0 1, .madd 0 2, .vadd 1 2, .gc true [2, 3]]

def dblTest : Bool :=
  match runAll dblEnv dblCalls (Safe.Sys.init 5 5) with
  | .error _ => false
  | .ok σ => (σ.d.vs[0]?.any fun e => e.n.isSome) && (σ.d.vs[1]?.any fun e => e.n.isSome) &&
    match run1 dblEnv (.measureOneCollapsing 0 1 (dbl.rnd (1 / 1000)) (dbl.rnd (1 / 3))) σ with
    | .ok (.char _, _) => true
    | _ => false

theorem dblTest_eq : dblTest = true := by decide +kernel

/-- A history in 53-bit arithmetic: a Bell state, a matrix product, a sum, a collection; then a measurement. -/
theorem demo_dbl : ∃ σ : Safe.Sys dbl.Num DC,
    Safe.Hist dblEnv false 5 5 dblCalls ⟨[2, 2], [2, 2, 2, 2]⟩ σ ∧
    Safe.pre ⟨[2, 2], [2, 2, 2, 2]⟩ σ.d (.measureOneCollapsing 0 1 (dbl.rnd (1 / 1000)) (dbl.rnd (1 / 3))) ∧
    Safe.pre ⟨[2, 2], [2, 2, 2, 2]⟩ σ.d (.getVector 1) := by
  have ht := dblTest_eq
  unfold dblTest at ht
  rcases hr : runAll dblEnv dblCalls (Safe.Sys.init 5 5) with er | σ
  · rw [hr] at ht; cases ht
  rw [hr] at ht
  simp only [Bool.and_eq_true, Option.any_eq_true] at ht
  obtain ⟨⟨⟨e0, g1, g2⟩, e1, g3, g4⟩, _⟩ := ht
  have l0 : σ.d.live 0 := ⟨e0, g1, by rintro h; rw [h] at g2; cases g2⟩
  have l1 : σ.d.live 1 := ⟨e1, g3, by rintro h; rw [h] at g4; cases g4⟩
  refine ⟨σ, ?_, ⟨2, rfl, l0, by decide⟩, ⟨2, rfl, by decide, l1⟩⟩
  refine hist_runAll .init hr ?_
  intro i d c hc
  match i with
  | 0 => cases hc; exact ⟨by decide, by decide⟩
  | 1 => cases hc; exact ⟨by decide, by decide⟩
  | 2 => cases hc; exact ⟨by decide, by decide, by decide⟩
  | 3 => cases hc; exact ⟨2, 2, rfl, rfl, le_rfl⟩
  | 4 => cases hc; exact ⟨2, 2, rfl, rfl, le_rfl⟩
  | 5 => cases hc; exact ⟨by decide, by decide⟩
  | 6 => cases hc; exact ⟨by decide, by decide⟩
  | 7 => cases hc; exact ⟨2, rfl, rfl⟩
  | 8 => cases hc; exact (show ∀ i ∈ [2, 3], i < 4 by decide)
  | n + 9 => simp at hc

/-- C17's hypotheses are met. -/
example : ∃ σ : Safe.Sys dbl.Num DC, Safe.Hist dblEnv false 5 5 dblCalls ⟨[2, 2], [2, 2, 2, 2]⟩ σ ∧
    ¬ Safe.CanFault dblEnv false σ (.getVector 1) := by
  obtain ⟨σ, h, _, hp⟩ := demo_dbl
  exact ⟨σ, h, (C17_rounded dbl (by norm_num) (by norm_num) id h hp).1⟩

end QDD.Props
