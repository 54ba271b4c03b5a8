import Verif.Py.Batch
import Verif.Props.Backend
/-!
# C52: options, batches and failed jobs
-/

set_option linter.unusedSectionVars false
set_option linter.unusedVariables false
set_option linter.unusedSimpArgs false

namespace QDD.Props
open Spec Api Gate Finset Py Py.Client

variable {cfg : Cfg ℝ} {thr thrM : Nat} {cs : List (Cmd ℝ)} {h : Heap ℝ} {σ : Sys ℝ} {os : List (Obs ℝ)}

/-- What a user sees of a failed job. -/
def Rejected (r : Option Job) : Prop := ∃ j, r = some j ∧ j.status = .ERROR ∧ j.success = false ∧ j.results = []

/-- What a user sees of a successful job: one experiment result per entry, each as required. -/
def Succeeded (Ts : List (Option Result → Prop)) (r : Option Job) : Prop :=
  ∃ j, r = some j ∧ j.status = .DONE ∧ j.success = true ∧ List.Forall₂ (fun (T : Option Result → Prop) a => T (some a)) Ts j.results

/-- `run` never raises, whatever happens: it returns a job, which has failed and has no results, or is done and has
exactly one result per circuit. -/
theorem C52_total {ps : List PCirc} {o : RunOpts} {us r σ'} (hx : MExec cfg (runJob ps o) σ us r σ') :
    Rejected r ∨ ∃ j cs, r = some j ∧ j.status = .DONE ∧ j.success = true ∧ bound ps o.binds = some cs ∧
      j.results.length = cs.length := by
  obtain ⟨j, hj⟩ := NoRaise.mexec hx (NoRaise.runJob ps o)
  rcases Ends.mexec hx (runJob_ends ps o) j hj with rfl | ⟨rs, cs, rfl, h1, h2⟩
  · exact .inl ⟨_, hj, rfl, rfl, rfl⟩
  · exact .inr ⟨_, cs, hj, rfl, rfl, h1, h2⟩

/-- **C52, shots.**  A number of shots that is not positive or is larger than 10^6 (or not a number) gives a failed job,
without any call of the engine: nothing is executed. -/
theorem C52_shots {ps : List PCirc} {o : RunOpts}
    (hs : (∃ z : Int, o.shots = .int z ∧ (z ≤ 0 ∨ 10 ^ 6 < z)) ∨ (∃ x : ℝ, o.shots = .float x ∧ (x ≤ 0 ∨ 10 ^ 6 < x)) ∨ o.shots = .other) :
    runJob ps o = .ret .failed ∧ Yields cfg (runJob ps o) σ Rejected 1 := by
  have e : runJob ps o = .ret .failed := by
    unfold runJob
    rw [if_neg]
    rcases hs with ⟨z, h, hz⟩ | ⟨x, h, hx⟩ | h <;> rw [h] <;> simp only [Shots.valid, maxShots, not_and, not_le, not_false_eq_true]
    · intro; omega
    · rcases hx with h | h
      · intro h'; linarith
      · intro _; push_cast; linarith
  refine ⟨e, ?_⟩
  rw [e]
  exact (if_pos ⟨_, rfl, rfl, rfl, rfl⟩).symm

/-- Measured circuits: those with a measurement. -/
theorem measured_iff {c : Circ} (hwf : ∀ x ∈ c.data, x.op = .measure → x.qargs ≠ []) :
    (classify c).measured = [] ↔ ∀ x ∈ c.data, x.op ≠ .measure := by
  have key : ∀ (xs : List Inst), (∀ x ∈ xs, x.op = .measure → x.qargs ≠ []) → ∀ (s : CircProp),
      (propLoop xs s).measured = [] ↔ s.measured = [] ∧ ∀ x ∈ xs, x.op ≠ .measure := by
    intro xs
    induction xs with
    | nil => intro _ s; simp [propLoop]
    | cons x xs ih =>
      intro hw s
      have ih := ih fun y hy => hw y (by simp [hy])
      have hx := hw x (by simp)
      unfold propLoop
      dsimp only
      have hm : (propStep x s).measured = [] ↔ s.measured = [] ∧ x.op ≠ .measure := by
        unfold propStep
        cases hop : x.op
        case measure => simp [hx hop]
        all_goals
          dsimp only
          split <;> simp
      split
      · rename_i hb
        simp only [Bool.and_eq_true, Bool.not_eq_true', List.isEmpty_eq_false_iff] at hb
        simp only [hb.2, false_iff]
        rintro ⟨h1, h2⟩
        exact hb.2 (hm.2 ⟨h1, h2 x (by simp)⟩)
      · rw [ih, hm]
        simp only [List.mem_cons, forall_eq_or_imp]
        tauto
  have := key c.data hwf ⟨true, [], []⟩
  simpa using this

/-- **C52, circuits.**  A circuit with more than 100 qubits, or without any measurement (the state vector not being
asked for), makes the job fail before anything is executed, wherever it is in the list. -/
theorem C52_circuit {ps : List PCirc} {o : RunOpts} {cs : List Circ} (hb : bound ps o.binds = some cs) {c : Circ} (hc : c ∈ cs)
    (hbad : 100 < c.nq ∨ (o.saveSV = false ∧ (∀ x ∈ c.data, x.op ≠ .measure))) :
    runJob ps o = .ret .failed ∧ Yields cfg (runJob ps o) σ Rejected 1 := by
  have hcp : circProp c (!o.saveSV) = none := by
    unfold circProp
    by_cases hn : 100 < c.nq
    · rw [if_pos hn]
    · rw [if_neg hn]
      rcases hbad with h | ⟨h1, h2⟩
      · exact absurd h hn
      · have := (measured_iff (c := c) fun x hx h => absurd h (h2 x hx)).2 h2
        dsimp only
        rw [if_pos]
        rw [show (propLoop c.data ⟨true, [], []⟩).measured = [] from this, h1]
        rfl
  have e : runJob ps o = .ret .failed := by
    unfold runJob
    split
    · rw [hb]
      dsimp only
      rw [mapM_none hc (by rw [hcp]; rfl)]
    · rfl
  refine ⟨e, ?_⟩
  rw [e]
  exact (if_pos ⟨_, rfl, rfl, rfl, rfl⟩).symm

/-- A binding that names a parameter the circuit does not have, or leaves one out, makes the job fail. -/
theorem C52_binding {ps : List PCirc} {o : RunOpts} {bs : List (List (Nat × ℝ))} (hbs : o.binds = some bs) {i : Nat}
    (h1 : i < ps.length) (h2 : i < bs.length)
    (hbad : (∃ k ∈ bs[i].map Prod.fst, k ∉ ps[i].params) ∨ ∃ k ∈ ps[i].params, k ∉ bs[i].map Prod.fst) :
    runJob ps o = .ret .failed ∧ Yields cfg (runJob ps o) σ Rejected 1 := by
  have hn : bound ps o.binds = none := by
    rw [hbs]
    unfold bound
    have hi : i < (ps.zip bs).length := by simp [h1, h2]
    refine mapM_none (List.getElem_mem hi) ?_
    rw [List.getElem_zip]
    dsimp only [assign]
    rw [if_neg]
    rintro ⟨a, b⟩
    rcases hbad with ⟨k, hk, hk'⟩ | ⟨k, hk, hk'⟩
    · exact hk' (a k hk)
    · exact hk' (b k hk)
  have e : runJob ps o = .ret .failed := by
    unfold runJob
    split
    · rw [hn]
    · rfl
  refine ⟨e, ?_⟩
  rw [e]
  exact (if_pos ⟨_, rfl, rfl, rfl, rfl⟩).symm

theorem finished_succeeded (Ts : List (Option Result → Prop)) : Finished Ts = Succeeded Ts := by
  funext r
  apply propext
  constructor
  · rintro ⟨rs, rfl, h⟩; exact ⟨_, rfl, rfl, rfl, h⟩
  · rintro ⟨j, rfl, h1, h2, h⟩
    cases j with
    | done rs => exact ⟨rs, rfl, h⟩
    | failed => cases h1

/-- **C54 for batches / C52.**  After any history, a job of supported, measured circuits with the option `shots` absent
(1024 shots) or between 1 and 10^6 succeeds with one result per circuit, in order; the memories are jointly distributed
as independent executions of the circuits, each bound to its own parameters.  Other options (`o.others`, for instance
unknown ones or `seed_simulator`) change nothing. -/
theorem C52_batch_partial (hR : Hist cfg thr thrM cs h σ os) (hsq : ∀ x, 0 ≤ x → cfg.sqrt x * cfg.sqrt x = x)
    {ps : List PCirc} {o : RunOpts} {N : Nat}
    (hN : (o.shots = .absent ∧ N = 1024) ∨ (o.shots = .int N ∧ 0 < N ∧ N ≤ 10 ^ 6))
    {bcs : List Circ} (hb : bound ps o.binds = some bcs) (hc : ∀ c ∈ bcs, Supported h.ms c)
    (hm : ∀ c ∈ bcs, (classify c).stable = true → ∀ x ∈ c.data, x.op = .measure → x.cond = none)
    (hmd : ∀ c ∈ bcs, ∃ x ∈ c.data, x.op = .measure) (hsv : o.saveSV = true → ∀ c ∈ bcs, c.nq ≤ 30)
    {keyss : List (List (List Bool))} (hk : keyss.length = bcs.length) (hkl : ∀ keys ∈ keyss, keys.length = N) :
    Yields cfg (runJob ps o) σ (Succeeded (keyss.map Memory)) ((List.zipWith (fun c keys => (keys.map c.prob).prod) bcs keyss).prod) := by
  have hv : o.shots.valid := by
    rcases hN with ⟨h, _⟩ | ⟨h, h1, h2⟩ <;> rw [h]
    · trivial
    · exact ⟨by omega, by unfold maxShots; omega⟩
  have hval : o.shots.value = some (some N) := by
    rcases hN with ⟨h, h1⟩ | ⟨h, h1, h2⟩ <;> rw [h]
    · rw [h1]; rfl
    · simp [Shots.value]
  have hN0 : 0 < N := by rcases hN with ⟨_, h⟩ | ⟨_, h, _⟩ <;> omega
  have hmeas : ∀ c ∈ bcs, (propLoop c.data ⟨true, [], []⟩).measured ≠ [] := by
    intro c hcc h0
    have hwf : ∀ x ∈ c.data, x.op = .measure → x.qargs ≠ [] := by
      intro x hx hop h'
      have := ((hc c hcc).fine x hx).arity
      rw [hop, h'] at this
      simp [Op.arity] at this
    obtain ⟨x, hx, hop⟩ := hmd c hcc
    exact (measured_iff hwf).1 h0 x hx hop
  rw [← finished_succeeded]
  refine Meets.yields hR (runJob_meets (ms := h.ms) hv hval hb (fun c hcc => ⟨(hc c hcc).lim, .inr (hmeas c hcc)⟩) _ _
    (by simp [hk]) (by simp [hk]) ?_ h ⟨[], by simp⟩)
  intro i h1 h2 h3
  have hi : i < keyss.length := by simpa using h2
  have hmem := List.getElem_mem h1
  simp only [List.getElem_map, List.getElem_zipWith]
  refine ⟨(by rintro ⟨_, h, _⟩; cases h), fun h' hh' => ?_⟩
  have hl := hkl _ (List.getElem_mem hi)
  refine run_meets hsq (hc _ hmem) (hm _ hmem) (by rw [hl]) (by intro h0; rw [h0] at hl; simp at hl; omega) (.inr (hmeas _ hmem))
    (fun hs => hsv hs _ hmem) hh'

/-- **C52 is false for `parameter_binds` shorter than the list of circuits**: the remaining circuits are silently dropped
and the job succeeds without results for them, whatever they are — even a circuit wider than the limit. -/
theorem C52_false (hR : Hist cfg thr thrM cs h σ os) (hsq : ∀ x, 0 ≤ x → cfg.sqrt x * cfg.sqrt x = x)
    (wide : PCirc) : let c : Circ := ⟨1, 1, 0, [xI 0, mI 0 0]⟩
    Yields cfg (runJob [⟨[], fun _ => c⟩, wide] ⟨.int 1, some [[]], [], false, none⟩) σ (Succeeded [Memory [[true]]]) 1 := by
  intro c
  have hfine : Supported h.ms c := ⟨by decide, by decide, by
    intro x hx
    simp only [c, List.mem_cons, List.mem_nil_iff, or_false] at hx
    rcases hx with rfl | rfl
    · exact xI_fine (by decide) (by simp)
    · exact mI_fine (by decide) (by decide) (by simp)⟩
  have hb : bound [⟨[], fun _ => c⟩, wide] (some [[]]) = some [c] := by
    simp [bound, assign]
  have := C52_batch_partial (ps := [⟨[], fun _ => c⟩, wide]) (o := ⟨.int 1, some [[]], [], false, none⟩) (N := 1) (bcs := [c])
    (keyss := [[[true]]]) hR hsq (.inr ⟨rfl, by norm_num, by norm_num⟩) hb (by simpa using hfine)
    (by
      intro x hx _ y hy _
      simp only [List.mem_singleton] at hx
      subst hx
      simp only [c, List.mem_cons, List.mem_nil_iff, or_false] at hy
      rcases hy with rfl | rfl <;> rfl)
    (by intro x hx; simp only [List.mem_singleton] at hx; subst hx; exact ⟨mI 0 0, by simp [c], rfl⟩)
    (by simp) (by simp) (by simp)
  refine cast (congrArg _ ?_) this
  simp only [List.zipWith_cons_cons, List.zipWith_nil_left, List.map_cons, List.map_nil, List.prod_cons, List.prod_nil, mul_one]
  unfold Circ.prob
  show expect 1 _ [xI 0, mI 0 0] (bs 0) _ = 1
  have w2 : ∀ y ∈ [mI 0 0], y.WF 1 1 := fun y hy => (hfine.fine y (List.mem_cons_of_mem _ hy)).toWF
  rw [expect_x (nc := 1) (by decide) w2, expect_m (nc := 1) (by simp), expect_nil (by simp [xI, Inst.enabled])]
  simp [mI, xI, Inst.enabled, c, upd]

/-- The hypotheses of `C52_shots`, `C52_circuit` are met. -/
example : runJob [] ⟨.int 0, none, [], false, none⟩ = .ret .failed :=
  (C52_shots (cfg := cfg) (σ := σ) (.inl ⟨0, rfl, .inl (le_refl _)⟩)).1
example (b : PCirc) (hb : b = ⟨[], fun _ => ⟨101, 1, 0, [xI 0, mI 0 0]⟩⟩) : runJob [b] ⟨.absent, none, ["seed_simulator"], false, none⟩ = .ret .failed :=
  (C52_circuit (cfg := cfg) (σ := σ) (cs := [⟨101, 1, 0, [xI 0, mI 0 0]⟩]) (c := ⟨101, 1, 0, [xI 0, mI 0 0]⟩) (by subst hb; simp [bound, assign]) (by simp) (.inl (by decide))).1

end QDD.Props
