import Verif.Props.Jobs
/-!
# C61: reproducibility of a job
-/

set_option linter.unusedSectionVars false
set_option linter.unusedVariables false
set_option linter.unusedSimpArgs false

namespace QDD.Props
open Spec Api Gate Finset Py Py.Client

/-- **C61, what holds.**  Two processes have made the same calls with the same outcomes (`h` are the values they hold) and
their generators produce the same numbers (`V`, `V'` are what is left of the stream).  A job of supported, measured circuits
then returns the same result in both and consumes the same numbers, whatever the thread schedules, hash functions, memory
addresses, cache contents and evictions, multi-threading option and collection thresholds of each were, and whatever seeds
were given. -/
theorem C61_draws_partial {cfg cfg' : Cfg ℝ} {thr thrM thr' thrM' : Nat} {cs cs' : List (Cmd ℝ)} {h : Heap ℝ} {σ σ' τ τ' : Sys ℝ}
    {os os' : List (Obs ℝ)} (hR : Hist cfg thr thrM cs h σ os) (hR' : Hist cfg' thr' thrM' cs' h σ' os')
    (hs : cfg'.sqrt = cfg.sqrt) (hsq : ∀ x, 0 ≤ x → cfg.sqrt x * cfg.sqrt x = x)
    {ps : List PCirc} {o : RunOpts} {N : Nat} (s s' : Option Int)
    (hN : (o.shots = .absent ∧ N = 1024) ∨ (o.shots = .int N ∧ 0 < N ∧ N ≤ 10 ^ 6))
    {bcs : List Circ} (hb : bound ps o.binds = some bcs) (hc : ∀ c ∈ bcs, Supported h.ms c)
    (hm : ∀ c ∈ bcs, (classify c).stable = true → ∀ x ∈ c.data, x.op = .measure → x.cond = none)
    (hmd : ∀ c ∈ bcs, ∃ x ∈ c.data, x.op = .measure) (hsv : o.saveSV = true → ∀ c ∈ bcs, c.nq ≤ 30)
    {us us' V V' : List ℝ} (hu : ∀ u ∈ us, 0 ≤ u ∧ u < 1) (hu' : ∀ u ∈ us', 0 ≤ u ∧ u < 1) (hV : us ++ V = us' ++ V')
    {r r' : Option Job} (hx : MExec cfg (runJob ps { o with seed := s }) σ us r τ)
    (hx' : MExec cfg' (runJob ps { o with seed := s' }) σ' us' r' τ') : r = r' ∧ us = us' := by
  have hv : o.shots.valid := by
    rcases hN with ⟨h, _⟩ | ⟨h, h1, h2⟩ <;> rw [h]
    · trivial
    · exact ⟨by omega, by unfold maxShots; omega⟩
  have hval : o.shots.value = some (some N) := by
    rcases hN with ⟨h, h1⟩ | ⟨h, h1, h2⟩ <;> rw [h]
    · rw [h1]; rfl
    · simp [Shots.value]
  have hN0 : 0 < N := by rcases hN with ⟨_, h⟩ | ⟨_, h, _⟩ <;> omega
  have hmeas : ∀ c ∈ bcs, (propLoop c.data ⟨true, [], []⟩).measured ≠ [] := by
    intro c hcc h0
    have hwf : ∀ x ∈ c.data, x.op = .measure → x.qargs ≠ [] := by
      intro x hx hop h'
      have := ((hc c hcc).fine x hx).arity
      rw [hop, h'] at this
      simp [Op.arity] at this
    obtain ⟨x, hx, hop⟩ := hmd c hcc
    exact (measured_iff hwf).1 h0 x hx hop
  have hsafe : Safe cfg.sqrt (runJob ps o) h := by
    refine (runJob_meets (ms := h.ms) hv hval hb (fun c hcc => ⟨(hc c hcc).lim, .inr (hmeas c hcc)⟩)
      (bcs.map fun _ => Memory (List.replicate N [])) (bcs.map fun c => (((List.replicate N [])).map c.prob).prod) (by simp) (by simp) ?_ h ⟨[], by simp⟩).1
    intro i h1 h2 h3
    have hmem := List.getElem_mem h1
    simp only [List.getElem_map]
    refine ⟨(by rintro ⟨_, h, _⟩; cases h), fun h' hh' => ?_⟩
    refine run_meets hsq (hc _ hmem) (hm _ hmem) (by simp) (by intro h0; simp at h0; omega) (.inr (hmeas _ hmem))
      (fun hs => hsv hs _ hmem) hh'
  have e1 : runJob ps { o with seed := s } = runJob ps o := rfl
  have e2 : runJob ps { o with seed := s' } = runJob ps o := rfl
  rw [e1] at hx
  rw [e2] at hx'
  obtain ⟨h1, p1, _⟩ := hx.plain hR.rel hsafe hu
  obtain ⟨h2, p2, _⟩ := hx'.plain hR'.rel (by rw [hs]; exact hsafe) hu'
  rw [hs] at p2
  obtain ⟨a1, a2, _⟩ := p1.unique V V' p2 hV
  exact ⟨a2, a1⟩

/-- A Hadamard gate, measured. -/
def coin : Circ := ⟨1, 1, 0, [⟨.gate .H [], [0], [], none⟩, mI 0 0]⟩

theorem coin_supported (ms : List (Mat ℝ)) : Supported ms coin where
  pos := by decide
  lim := by decide
  fine := by
    intro x hx
    simp only [coin, List.mem_cons, List.mem_nil_iff, or_false] at hx
    rcases hx with rfl | rfl
    · exact { distinct := by simp, qubits := by simp [coin], clbits := by simp, arity := ⟨rfl, by simp [GName.mat1]⟩,
              cond := by simp, op := (by intro b hb; cases hb), aligned := by simp }
    · exact mI_fine (by decide) (by decide) (by simp)

theorem coin_prob (b : Bool) : coin.prob [b] = 1 / 2 := by
  have ho : (⟨.gate .H [], [0], [], none⟩ : Inst).oper 1 = some (Spec.gate1 1 Gate.Hmat 0 []) := by
    show GName.oper .H 1 [] [0] = _
    rw [← built_eq 1 .H (by intro b hb; cases hb)]
    simp [built, tab1, controls]
  have h2 := sqrt2sq
  unfold Circ.prob
  show expect 1 _ [⟨.gate .H [], [0], [], none⟩, mI 0 0] (bs 0) _ = 1 / 2
  rw [Py.expect]
  simp only [Inst.enabled, if_true]
  show (match (⟨.gate .H [], [0], [], none⟩ : Inst).oper 1 with | some A => expect 1 _ [mI 0 0] (app 1 A (bs 0)) _ | none => 0) = _
  rw [ho]
  dsimp only
  rw [Py.expect]
  simp only [mI, Inst.enabled, if_true]
  have e : ∀ i < 2, app 1 (Spec.gate1 1 Gate.Hmat 0 []) (bs 0) i = ⟨SQRT2, 0⟩ := by
    intro i hi
    unfold Py.app
    rcases (by omega : i = 0 ∨ i = 1) with rfl | rfl <;>
      simp [Finset.sum_range_succ, bs, Spec.gate1, Gate.Hmat, Gate.g4, cS, cMS, Spec.sat, Spec.bit, Spec.pre]
  have f : ∀ b, Py.nrm 1 (Py.proj 0 b (app 1 (Spec.gate1 1 Gate.Hmat 0 []) (bs 0))) = 1 / 2 := by
    intro b
    unfold Py.nrm Py.proj
    rw [show (2 : Nat) ^ 1 = 2 from rfl, Finset.sum_range_succ, Finset.sum_range_succ, Finset.sum_range_zero]
    rw [e 0 (by decide), e 1 (by decide)]
    cases b <;> simp [Cx.mag2] <;> linarith
  simp only [Py.expect, f]
  cases b <;> simp [coin, Py.upd] <;> exact (f _).trans (by norm_num)

/-- **C61 is false with a seed.**  The option `seed_simulator`, documented as the seed of the simulator, changes nothing: with
any seed, a one-shot job of a measured Hadamard gate gives each of the two outcomes with probability one half (the numbers
come from a generator seeded from the random device when the process starts), so the result is not determined by the
circuit, the options and the seed. -/
theorem C61_false {cfg : Cfg ℝ} {thr thrM : Nat} {cs : List (Cmd ℝ)} {h : Heap ℝ} {σ : Sys ℝ} {os : List (Obs ℝ)}
    (hR : Hist cfg thr thrM cs h σ os) (hsq : ∀ x, 0 ≤ x → cfg.sqrt x * cfg.sqrt x = x) (s : Int) (b : Bool) :
    Yields cfg (runJob [⟨[], fun _ => coin⟩] ⟨.int 1, none, ["seed_simulator"], false, some s⟩) σ
      (Succeeded [Memory [[b]]]) (1 / 2) := by
  have := C52_batch_partial (ps := [⟨[], fun _ => coin⟩]) (o := ⟨.int 1, none, ["seed_simulator"], false, some s⟩) (N := 1)
    (bcs := [coin]) (keyss := [[[b]]]) hR hsq (.inr ⟨rfl, by norm_num, by norm_num⟩) (by simp [bound, assign])
    (by simpa using coin_supported h.ms)
    (by
      intro x hx _ y hy _
      simp only [List.mem_singleton] at hx
      subst hx
      simp only [coin, List.mem_cons, List.mem_nil_iff, or_false] at hy
      rcases hy with rfl | rfl <;> rfl)
    (by intro x hx; simp only [List.mem_singleton] at hx; subst hx; exact ⟨mI 0 0, by simp [coin], rfl⟩)
    (by simp) (by simp) (by simp)
  refine cast (congrArg _ ?_) this
  simp [coin_prob]

/-- The hypotheses of `C61_draws_partial` are met: two fresh processes with different hash functions, caches, thread counts
and thresholds, any two seeds, and the measured Hadamard gate; with the same numbers both return the same counts. -/
example {cfg cfg' : Cfg ℝ} (hs : cfg'.sqrt = cfg.sqrt) (hsq : ∀ x, 0 ≤ x → cfg.sqrt x * cfg.sqrt x = x) {s s' : Option Int}
    {us V V' us' : List ℝ} (hu : ∀ u ∈ us, 0 ≤ u ∧ u < 1) (hu' : ∀ u ∈ us', 0 ≤ u ∧ u < 1) (hV : us ++ V = us' ++ V')
    {r r' : Option Job} {τ τ' : Sys ℝ}
    (hx : MExec cfg (runJob [⟨[], fun _ => coin⟩] ⟨.int 1, none, [], false, s⟩) (Sys.init 1 2) us r τ)
    (hx' : MExec cfg' (runJob [⟨[], fun _ => coin⟩] ⟨.int 1, none, [], false, s'⟩) (Sys.init 3 4) us' r' τ') : r = r' ∧ us = us' :=
  C61_draws_partial (o := ⟨.int 1, none, [], false, none⟩) (N := 1) (bcs := [coin]) .init .init hs hsq s s'
    (.inr ⟨rfl, by norm_num, by norm_num⟩) (by simp [bound, assign])
    (by simpa using coin_supported [])
    (by
      intro x hx _ y hy _
      simp only [List.mem_singleton] at hx
      subst hx
      simp only [coin, List.mem_cons, List.mem_nil_iff, or_false] at hy
      rcases hy with rfl | rfl <;> rfl)
    (by intro x hx; simp only [List.mem_singleton] at hx; subst hx; exact ⟨mI 0 0, by simp [coin], rfl⟩)
    (by simp) hu hu' hV hx hx'

end QDD.Props
