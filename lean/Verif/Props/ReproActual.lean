import Verif.Props.JobsActual
import Verif.Props.Repro
/-!
# Jobs of any circuits are functions of the numbers drawn (C61)
-/

set_option linter.unusedSectionVars false
set_option linter.unusedVariables false
set_option linter.unusedSimpArgs false

namespace QDD.Props
open Spec Api Gate Finset Py Py.Client

/-- **C61, all circuits.**  As `C61_draws_partial`, for any circuits the backend can run (any control states, conditions and
measurements): two processes that made the same calls with the same outcomes and draw the same numbers return the same
result for the same job and consume the same numbers, whatever the schedules, hash functions, addresses, caches, options and
thresholds of each were, and whatever seeds were given. -/
theorem C61_draws_actual {cfg cfg' : Cfg ℝ} {thr thrM thr' thrM' : Nat} {cs cs' : List (Cmd ℝ)} {h : Heap ℝ} {σ σ' τ τ' : Sys ℝ}
    {os os' : List (Obs ℝ)} (hR : Hist cfg thr thrM cs h σ os) (hR' : Hist cfg' thr' thrM' cs' h σ' os')
    (hs : cfg'.sqrt = cfg.sqrt) (hsq : ∀ x, 0 ≤ x → cfg.sqrt x * cfg.sqrt x = x)
    {ps : List PCirc} {o : RunOpts} {N : Nat} (s s' : Option Int) (hN : ShotsAre o.shots N)
    {bcs : List Circ} (hb : bound ps o.binds = some bcs) (hc : ∀ c ∈ bcs, CanRun h.ms c)
    (hsv : o.saveSV = true → ∀ c ∈ bcs, c.nq ≤ 30)
    {us us' V V' : List ℝ} (hu : ∀ u ∈ us, 0 ≤ u ∧ u < 1) (hu' : ∀ u ∈ us', 0 ≤ u ∧ u < 1) (hV : us ++ V = us' ++ V')
    {r r' : Option Job} (hx : MExec cfg (runJob ps { o with seed := s }) σ us r τ)
    (hx' : MExec cfg' (runJob ps { o with seed := s' }) σ' us' r' τ') : r = r' ∧ us = us' := by
  obtain ⟨hv, hval, hN0⟩ := hN.valid
  have hsafe : Safe cfg.sqrt (runJob ps o) h := by
    refine (runJob_meets (ms := h.ms) hv hval hb (fun c hcc => ⟨(hc c hcc).lim, .inr (hc c hcc).meas⟩)
      (bcs.map fun _ => Memory (List.replicate N [])) (bcs.map fun c => (((List.replicate N [])).map (asRun c).prob).prod)
      (by simp) (by simp) ?_ h ⟨[], by simp⟩).1
    intro i h1 h2 h3
    have hmem := List.getElem_mem h1
    simp only [List.getElem_map]
    exact ⟨(by rintro ⟨_, h, _⟩; cases h), fun h' hh' => canRun_meets hsq (hc _ hmem) (asRun_reads (hc _ hmem).wf)
      (by intro h0; simp at h0; omega) (by simp) (fun hs => hsv hs _ hmem) hh'⟩
  have e1 : runJob ps { o with seed := s } = runJob ps o := rfl
  have e2 : runJob ps { o with seed := s' } = runJob ps o := rfl
  rw [e1] at hx
  rw [e2] at hx'
  obtain ⟨h1, p1, _⟩ := hx.plain hR.rel hsafe hu
  obtain ⟨h2, p2, _⟩ := hx'.plain hR'.rel (by rw [hs]; exact hsafe) hu'
  rw [hs] at p2
  obtain ⟨a1, a2, _⟩ := p1.unique V V' p2 hV
  exact ⟨a2, a1⟩

/-- A job of a circuit with an open control, which the backend misreads, in two fresh processes. -/
example {cfg cfg' : Cfg ℝ} (hs : cfg'.sqrt = cfg.sqrt) (hsq : ∀ x, 0 ≤ x → cfg.sqrt x * cfg.sqrt x = x) {s s' : Option Int}
    {us V V' us' : List ℝ} (hu : ∀ u ∈ us, 0 ≤ u ∧ u < 1) (hu' : ∀ u ∈ us', 0 ≤ u ∧ u < 1) (hV : us ++ V = us' ++ V')
    {r r' : Option Job} {τ τ' : Sys ℝ}
    (hx : MExec cfg (runJob [⟨[], fun _ => openCtrl⟩] ⟨.int 1, none, [], false, s⟩) (Sys.init 1 2) us r τ)
    (hx' : MExec cfg' (runJob [⟨[], fun _ => openCtrl⟩] ⟨.int 1, none, [], false, s'⟩) (Sys.init 3 4) us' r' τ') : r = r' ∧ us = us' :=
  C61_draws_actual (o := ⟨.int 1, none, [], false, none⟩) (N := 1) (bcs := [openCtrl]) .init .init hs hsq s s'
    (.inr ⟨rfl, by norm_num, by norm_num⟩) (by simp [bound, assign]) (by simpa using openCtrl_canRun []) (by simp) hu hu' hV hx hx'

end QDD.Props
