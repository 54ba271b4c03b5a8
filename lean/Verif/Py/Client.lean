import Verif.Api.Main
import Mathlib.MeasureTheory.Integral.Bochner.Set
import Mathlib.MeasureTheory.Measure.Lebesgue.Basic
/-!
# Client programs of the engine

The Python layer is modelled as programs that call the engine (`Api.Cmd`), draw random numbers and raise exceptions.
A program can be run on the modelled engine (`MExec`: tables, caches, fibers, garbage collection) or on plain vectors
and matrices (`PExec`).  `Safe` programs, whose calls respect the preconditions, cannot tell the difference.
-/

set_option linter.unusedSectionVars false
set_option linter.unusedVariables false
set_option linter.unusedSimpArgs false

namespace QDD.Py
open Spec Api

/-- A Python program.  Calls hand back the answer and the numbers of live vector and matrix handles, so that the handle
made by a call is the last one.  `draw` is one value of `std::uniform_real_distribution<double>(0, 1)` on the generator
of the module (bindings.cpp 28-29); `raise` is a Python exception. -/
inductive Client (α : Type) where
  | ret (a : α)
  | raise
  | draw (k : ℝ → Client α)
  | call (c : Cmd ℝ) (k : Obs ℝ → Nat → Nat → Client α)

namespace Client

def bind' {α β : Type} : Client α → (α → Client β) → Client β
  | ret a, f => f a
  | raise, _ => raise
  | draw k, f => draw fun u => bind' (k u) f
  | call c k, f => call c fun o a b => bind' (k o a b) f

instance : Monad Client where
  pure := ret
  bind := bind'

/-- How a program ends. -/
abbrev Res (α : Type) := Option α

/-- Running on plain values; the list is the draws consumed. -/
inductive PExec (sqrt : ℝ → ℝ) {α : Type} : Client α → Heap ℝ → List ℝ → Option α → Heap ℝ → Prop
  | ret (a h) : PExec sqrt (ret a) h [] (some a) h
  | raise (h) : PExec sqrt raise h [] none h
  | draw {k u h us r h'} : PExec sqrt (k u) h us r h' → PExec sqrt (draw k) h (u :: us) r h'
  | call {c k h h1 o us r h'} : step sqrt h c = some (h1, o) → PExec sqrt (k o h1.vs.length h1.ms.length) h1 us r h' →
      PExec sqrt (call c k) h us r h'

/-- Running on the engine, under some schedule. -/
inductive MExec (cfg : Cfg ℝ) {α : Type} : Client α → Sys ℝ → List ℝ → Option α → Sys ℝ → Prop
  | ret (a σ) : MExec cfg (ret a) σ [] (some a) σ
  | raise (σ) : MExec cfg raise σ [] none σ
  | draw {k u σ us r σ'} : MExec cfg (k u) σ us r σ' → MExec cfg (draw k) σ (u :: us) r σ'
  | call {c k σ σ1 o us r σ'} : Exec cfg σ c o σ1 → MExec cfg (k o σ1.d.vs.length σ1.d.ms.length) σ1 us r σ' →
      MExec cfg (call c k) σ us r σ'

/-- The program can get into an engine call that can go wrong (invalid access, failed assertion, …). -/
inductive MFault (cfg : Cfg ℝ) {α : Type} : Client α → Sys ℝ → List ℝ → Prop
  | here {c k σ} : CanFault cfg σ c → MFault cfg (call c k) σ []
  | draw {k u σ us} : MFault cfg (k u) σ us → MFault cfg (draw k) σ (u :: us)
  | call {c k σ σ1 o us} : Exec cfg σ c o σ1 → MFault cfg (k o σ1.d.vs.length σ1.d.ms.length) σ1 us →
      MFault cfg (call c k) σ us

/-- All calls respect the preconditions, whatever is drawn from [0, 1). -/
def Safe (sqrt : ℝ → ℝ) {α : Type} : Client α → Heap ℝ → Prop
  | ret _, _ => True
  | raise, _ => True
  | draw k, h => ∀ u, 0 ≤ u → u < 1 → Safe sqrt (k u) h
  | call c k, h => pre NQUBITS h c ∧ ∀ h1 o, step sqrt h c = some (h1, o) →
      Safe sqrt (k o h1.vs.length h1.ms.length) h1

/-- A draw from [0, 1). -/
def Unit01 (us : List ℝ) : Prop := ∀ u ∈ us, 0 ≤ u ∧ u < 1

theorem Rel.lengths {env : Env (C ℝ)} {σ : Sys ℝ} {h : Heap ℝ} (hr : Rel env σ h) :
    σ.d.vs.length = h.vs.length ∧ σ.d.ms.length = h.ms.length :=
  ⟨hr.data.vs.length_eq.symm, hr.data.ms.length_eq.symm⟩

/-- **Refinement for clients**: on the engine a safe program does what it does on plain values. -/
theorem MExec.plain {cfg : Cfg ℝ} {α : Type} {p : Client α} {σ : Sys ℝ} {us r σ'} (hx : MExec cfg p σ us r σ') :
    ∀ {h : Heap ℝ}, Rel cfg.env σ h → Safe cfg.sqrt p h → Unit01 us →
      ∃ h', PExec cfg.sqrt p h us r h' ∧ Rel cfg.env σ' h' := by
  induction hx with
  | ret a σ => intro h hr _ _; exact ⟨h, .ret a h, hr⟩
  | raise σ => intro h hr _ _; exact ⟨h, .raise h, hr⟩
  | @draw k u σ us r σ' hx ih =>
    intro h hr hs hu
    have h0 := hu u (by simp)
    obtain ⟨h', hp, hr'⟩ := ih hr (hs u h0.1 h0.2) (fun v hv => hu v (by simp [hv]))
    exact ⟨h', .draw hp, hr'⟩
  | @call c k σ σ1 o us r σ' he hx ih =>
    intro h hr hs hu
    obtain ⟨hp, hk⟩ := hs
    obtain ⟨h1, o', hst⟩ := step_defined cfg.sqrt hp
    have hc := hr.call hp hst
    have ho := hc.1.answer _ _ he
    subst ho
    have hr1 := hc.2 _ _ he
    have hl := Rel.lengths hr1
    rw [hl.1, hl.2] at ih
    obtain ⟨h', hp', hr'⟩ := ih hr1 (hk _ _ hst) hu
    exact ⟨h', .call hst hp', hr'⟩

/-- A safe program never gets into an engine call that can go wrong. -/
theorem Safe.noFault {cfg : Cfg ℝ} {α : Type} {p : Client α} {σ : Sys ℝ} {us} (hx : MFault cfg p σ us) :
    ∀ {h : Heap ℝ}, Rel cfg.env σ h → Safe cfg.sqrt p h → Unit01 us → False := by
  induction hx with
  | @here c k σ hf =>
    intro h hr hs _
    obtain ⟨h1, o', hst⟩ := step_defined cfg.sqrt hs.1
    exact (hr.call hs.1 hst).1.noFault hf
  | @draw k u σ us hx ih =>
    intro h hr hs hu
    have h0 := hu u (by simp)
    exact ih hr (hs u h0.1 h0.2) (fun v hv => hu v (by simp [hv]))
  | @call c k σ σ1 o us he hx ih =>
    intro h hr hs hu
    obtain ⟨hp, hk⟩ := hs
    obtain ⟨h1, o', hst⟩ := step_defined cfg.sqrt hp
    have hc := hr.call hp hst
    have ho := hc.1.answer _ _ he
    subst ho
    have hr1 := hc.2 _ _ he
    have hl := Rel.lengths hr1
    rw [hl.1, hl.2] at ih
    exact ih hr1 (hk _ _ hst) hu

/-- A safe program runs to its end on plain values, whatever the draws. -/
theorem Safe.runs {sqrt : ℝ → ℝ} {α : Type} (p : Client α) : ∀ (h : Heap ℝ), Safe sqrt p h → ∀ (U : Nat → ℝ),
    (∀ i, 0 ≤ U i ∧ U i < 1) → ∃ N r h', PExec sqrt p h ((List.range N).map U) r h' := by
  induction p with
  | ret a => intro h _ U _; exact ⟨0, _, h, .ret a h⟩
  | raise => intro h _ U _; exact ⟨0, _, h, .raise h⟩
  | draw k ih =>
    intro h hs U hU
    obtain ⟨N, r, h', hp⟩ := ih (U 0) h (hs _ (hU 0).1 (hU 0).2) (fun i => U (i + 1)) (fun i => hU (i + 1))
    refine ⟨N + 1, r, h', ?_⟩
    rw [List.range_succ_eq_map, List.map_cons, List.map_map]
    exact .draw hp
  | call c k ih =>
    intro h hs U hU
    obtain ⟨h1, o', hst⟩ := step_defined sqrt hs.1
    obtain ⟨N, r, h', hp⟩ := ih _ _ _ h1 (hs.2 _ _ hst) U hU
    exact ⟨N, r, h', .call hst hp⟩

/-- A safe program runs to its end on the engine, whatever the draws. -/
theorem Safe.mruns {cfg : Cfg ℝ} {α : Type} (p : Client α) : ∀ (σ : Sys ℝ) (h : Heap ℝ), Rel cfg.env σ h →
    Safe cfg.sqrt p h → ∀ (U : Nat → ℝ), (∀ i, 0 ≤ U i ∧ U i < 1) →
    ∃ N r σ', MExec cfg p σ ((List.range N).map U) r σ' := by
  induction p with
  | ret a => intro σ h _ _ U _; exact ⟨0, _, σ, .ret a σ⟩
  | raise => intro σ h _ _ U _; exact ⟨0, _, σ, .raise σ⟩
  | draw k ih =>
    intro σ h hr hs U hU
    obtain ⟨N, r, h', hp⟩ := ih (U 0) σ h hr (hs _ (hU 0).1 (hU 0).2) (fun i => U (i + 1)) (fun i => hU (i + 1))
    refine ⟨N + 1, r, h', ?_⟩
    rw [List.range_succ_eq_map, List.map_cons, List.map_map]
    exact .draw hp
  | call c k ih =>
    intro σ h hr hs U hU
    obtain ⟨h1, o', hst⟩ := step_defined cfg.sqrt hs.1
    have hc := hr.call hs.1 hst
    obtain ⟨σ1, he⟩ := hc.1.exec
    have hr1 := hc.2 _ _ he
    have hl := Rel.lengths hr1
    have hsafe := hs.2 _ _ hst
    rw [← hl.1, ← hl.2] at hsafe
    obtain ⟨N, r, h', hp⟩ := ih _ _ _ σ1 h1 hr1 hsafe U hU
    exact ⟨N, r, h', .call he hp⟩

/-- The result of a program on plain values depends on the draws only. -/
theorem PExec.unique {sqrt : ℝ → ℝ} {α : Type} {p : Client α} {h : Heap ℝ} {us r h'} (hx : PExec sqrt p h us r h') :
    ∀ {us' r' h''} (V V' : List ℝ), PExec sqrt p h us' r' h'' → us ++ V = us' ++ V' → us = us' ∧ r = r' ∧ h' = h'' := by
  induction hx with
  | ret a h => intro us' r' h'' V V' hx' _; cases hx'; exact ⟨rfl, rfl, rfl⟩
  | raise h => intro us' r' h'' V V' hx' _; cases hx'; exact ⟨rfl, rfl, rfl⟩
  | draw hx ih =>
    intro us' r' h'' V V' hx' he
    cases hx' with
    | draw hx' =>
      simp only [List.cons_append, List.cons.injEq] at he
      obtain ⟨rfl, he⟩ := he
      obtain ⟨h1, h2, h3⟩ := ih V V' hx' he
      exact ⟨by rw [h1], h2, h3⟩
  | call hs hx ih =>
    intro us' r' h'' V V' hx' he
    cases hx' with
    | call hs' hx' =>
      rw [hs] at hs'
      cases hs'
      exact ih V V' hx' he

open MeasureTheory Classical in
/-- The probability that the program ends with a result satisfying `T`, the draws being independent and uniform on
[0, 1): each draw is integrated over. -/
noncomputable def prob (sqrt : ℝ → ℝ) {α : Type} : Client α → Heap ℝ → (Option α → Prop) → ℝ
  | ret a, _, T => if T (some a) then 1 else 0
  | raise, _, T => if T none then 1 else 0
  | draw k, h, T => ∫ u in Set.Ico (0 : ℝ) 1, prob sqrt (k u) h T
  | call c k, h, T => match step sqrt h c with
    | none => 0
    | some (h1, o) => prob sqrt (k o h1.vs.length h1.ms.length) h1 T

open MeasureTheory Classical in
/-- **Probability on the engine.**  Run on the engine from `σ`, the program ends with a result satisfying `T` with
probability `x`, the draws being independent and uniform on [0, 1); no call can go wrong, every call returns, and this
is so for every schedule of the fibers (each call may have many executions).  The function integrated over a draw is
integrable, so the integral is a true average (`Yields.or`, `Yields.compl`: the numbers add up as probabilities do). -/
noncomputable def Yields (cfg : Cfg ℝ) {α : Type} : Client α → Sys ℝ → (Option α → Prop) → ℝ → Prop
  | ret a, _, T, x => x = if T (some a) then 1 else 0
  | raise, _, T, x => x = if T none then 1 else 0
  | draw k, σ, T, x => ∃ F : ℝ → ℝ, (∀ u, 0 ≤ u → u < 1 → Yields cfg (k u) σ T (F u)) ∧
      IntegrableOn F (Set.Ico (0 : ℝ) 1) ∧ x = ∫ u in Set.Ico (0 : ℝ) 1, F u
  | call c k, σ, T, x => ¬ CanFault cfg σ c ∧ (∃ o σ1, Exec cfg σ c o σ1) ∧
      ∀ o σ1, Exec cfg σ c o σ1 → Yields cfg (k o σ1.d.vs.length σ1.d.ms.length) σ1 T x

open MeasureTheory in
/-- The integrals of `prob` are over integrable functions. -/
def Fair (sqrt : ℝ → ℝ) {α : Type} (T : Option α → Prop) : Client α → Heap ℝ → Prop
  | ret _, _ => True
  | raise, _ => True
  | draw k, h => (∀ u, 0 ≤ u → u < 1 → Fair sqrt T (k u) h) ∧ IntegrableOn (fun u => prob sqrt (k u) h T) (Set.Ico (0 : ℝ) 1)
  | call c k, h => ∀ h1 o, step sqrt h c = some (h1, o) → Fair sqrt T (k o h1.vs.length h1.ms.length) h1

/-- For safe programs the probability can be computed on plain values. -/
theorem Safe.yields {cfg : Cfg ℝ} {α : Type} (T : Option α → Prop) (p : Client α) : ∀ (σ : Sys ℝ) (h : Heap ℝ), Rel cfg.env σ h →
    Safe cfg.sqrt p h → Fair cfg.sqrt T p h → Yields cfg p σ T (prob cfg.sqrt p h T) := by
  induction p with
  | ret a => intro σ h _ _ _; exact rfl
  | raise => intro σ h _ _ _; exact rfl
  | draw k ih =>
    intro σ h hr hs hf
    exact ⟨fun u => prob cfg.sqrt (k u) h T, fun u h0 h1 => ih u σ h hr (hs u h0 h1) (hf.1 u h0 h1), hf.2, rfl⟩
  | call c k ih =>
    intro σ h hr hs hf
    obtain ⟨h1, o', hst⟩ := step_defined cfg.sqrt hs.1
    have hc := hr.call hs.1 hst
    refine ⟨hc.1.noFault, ?_, fun o σ1 he => ?_⟩
    · obtain ⟨σ1, he⟩ := hc.1.exec
      exact ⟨o', σ1, he⟩
    · have ho := hc.1.answer _ _ he
      subst ho
      have hr1 := hc.2 _ _ he
      have hl := Rel.lengths hr1
      have hsafe := hs.2 _ _ hst
      rw [← hl.1, ← hl.2] at hsafe
      have hfair := hf _ _ hst
      rw [← hl.1, ← hl.2] at hfair
      have := ih o σ1.d.vs.length σ1.d.ms.length σ1 h1 hr1 hsafe hfair
      rw [hl.1, hl.2] at this ⊢
      rw [prob, hst]
      exact this

/-- The probability is determined. -/
theorem Yields.unique {cfg : Cfg ℝ} {α : Type} {T : Option α → Prop} (p : Client α) : ∀ {σ : Sys ℝ} {x y : ℝ},
    Yields cfg p σ T x → Yields cfg p σ T y → x = y := by
  induction p with
  | ret a => intro σ x y h1 h2; exact Eq.trans h1 (Eq.symm h2)
  | raise => intro σ x y h1 h2; exact Eq.trans h1 (Eq.symm h2)
  | draw k ih =>
    rintro σ x y ⟨F, hF, _, rfl⟩ ⟨G, hG, _, rfl⟩
    exact MeasureTheory.setIntegral_congr_fun measurableSet_Ico fun u hu => ih u (hF u hu.1 hu.2) (hG u hu.1 hu.2)
  | call c k ih =>
    rintro σ x y ⟨_, ⟨o, σ1, he⟩, h1⟩ ⟨_, _, h2⟩
    exact ih _ _ _ (h1 o σ1 he) (h2 o σ1 he)

open Classical in
/-- Probabilities of events that exclude each other add up. -/
theorem Yields.or {cfg : Cfg ℝ} {α : Type} {T1 T2 : Option α → Prop} (hd : ∀ r, ¬ (T1 r ∧ T2 r)) (p : Client α) : ∀ {σ : Sys ℝ} {x y : ℝ},
    Yields cfg p σ T1 x → Yields cfg p σ T2 y → Yields cfg p σ (fun r => T1 r ∨ T2 r) (x + y) := by
  have key : ∀ r, ((if T1 r then 1 else 0) + (if T2 r then 1 else 0) : ℝ) = if T1 r ∨ T2 r then 1 else 0 := by
    intro r
    by_cases h1 : T1 r
    · rw [if_pos h1, if_neg (fun h => hd r ⟨h1, h⟩), if_pos (Or.inl h1), add_zero]
    · by_cases h2 : T2 r
      · rw [if_neg h1, if_pos h2, if_pos (Or.inr h2), zero_add]
      · rw [if_neg h1, if_neg h2, if_neg (by rintro (h | h) <;> contradiction), add_zero]
  induction p with
  | ret a => intro σ x y h1 h2; rw [Yields] at *; rw [h1, h2, key]; congr
  | raise => intro σ x y h1 h2; rw [Yields] at *; rw [h1, h2, key]; congr
  | draw k ih =>
    rintro σ x y ⟨F, hF, iF, rfl⟩ ⟨G, hG, iG, rfl⟩
    exact ⟨fun u => F u + G u, fun u h0 h1 => ih u (hF u h0 h1) (hG u h0 h1), iF.add iG, (MeasureTheory.integral_add iF iG).symm⟩
  | call c k ih =>
    rintro σ x y ⟨h0, h1, h2⟩ ⟨_, _, h3⟩
    exact ⟨h0, h1, fun o σ1 he => ih _ _ _ (h2 o σ1 he) (h3 o σ1 he)⟩

open Classical in
/-- The probability of the complement. -/
theorem Yields.compl {cfg : Cfg ℝ} {α : Type} {T : Option α → Prop} (p : Client α) : ∀ {σ : Sys ℝ} {x : ℝ},
    Yields cfg p σ T x → Yields cfg p σ (fun r => ¬ T r) (1 - x) := by
  have key : ∀ r, (1 - (if T r then 1 else 0) : ℝ) = if ¬ T r then 1 else 0 := by
    intro r
    by_cases h1 : T r
    · rw [if_pos h1, if_neg (not_not.2 h1), sub_self]
    · rw [if_neg h1, if_pos h1, sub_zero]
  induction p with
  | ret a => intro σ x h1; rw [Yields] at *; rw [h1, key]; congr
  | raise => intro σ x h1; rw [Yields] at *; rw [h1, key]; congr
  | draw k ih =>
    rintro σ x ⟨F, hF, iF, rfl⟩
    have i1 : MeasureTheory.IntegrableOn (fun _ : ℝ => (1 : ℝ)) (Set.Ico 0 1) := by
      rw [MeasureTheory.integrableOn_const_iff]; right; simp
    refine ⟨fun u => 1 - F u, fun u h0 h1 => ih u (hF u h0 h1), i1.sub iF, ?_⟩
    rw [MeasureTheory.integral_sub i1 iF]
    simp
  | call c k ih =>
    rintro σ x ⟨h0, h1, h2⟩
    exact ⟨h0, h1, fun o σ1 he => ih _ _ _ (h2 o σ1 he)⟩

/-- Events with the same results. -/
theorem Yields.congr {cfg : Cfg ℝ} {α : Type} {T T' : Option α → Prop} (h : ∀ r, T r ↔ T' r) {p : Client α} {σ : Sys ℝ} {x : ℝ}
    (hy : Yields cfg p σ T x) : Yields cfg p σ T' x := by
  rw [show T' = T from funext fun r => propext (h r).symm]; exact hy

end Client
end QDD.Py
