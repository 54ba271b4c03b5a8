import Verif.Props.JobsActual
import Verif.Props.SampExact
/-!
# What the sampler's quasi-distributions are sampled from, whatever the circuits (C47)
-/

set_option linter.unusedSectionVars false
set_option linter.unusedVariables false
set_option linter.unusedSimpArgs false

namespace QDD.Props
open Spec Api Gate Finset Py Py.Client

variable {cfg : Cfg ℝ} {thr thrM : Nat} {cs : List (Cmd ℝ)} {h : Heap ℝ} {σ : Sys ℝ} {os : List (Obs ℝ)}
variable {Key : Type} [DecidableEq Key] {key : PCirc → Key} {tr : PCirc → PCirc} {P : PCirc → Prop}

/-- What is assumed of Qiskit here: `_circuit_key` tells circuits apart, `transpile` keeps the parameters and gives circuits
the backend can run - with any control states, conditions on any registers, measurements anywhere. -/
structure QiskitAny (ms : List (Mat ℝ)) (key : PCirc → Key) (tr : PCirc → PCirc) (P : PCirc → Prop) : Prop where
  key : ∀ p q, P p → P q → key p = key q → p = q
  params : ∀ p, P p → (tr p).params = p.params
  runs : ∀ p, P p → ∀ v, CanRun ms ((tr p).at_ v)

theorem memories_iff (keyss : List (List (List Bool))) (rs : List Result) :
    Memories keyss (some rs) ↔ Finished (keyss.map Memory) (some (.done rs)) := by
  rw [memories_each]
  constructor
  · rintro ⟨_, h1, h2⟩; cases h1; exact ⟨_, rfl, h2⟩
  · rintro ⟨_, h1, h2⟩; cases h1; exact ⟨_, rfl, h2⟩

theorem memories_yields (hR : Hist cfg thr thrM cs h σ os) {qs : List PCirc} {bs : List (List (Nat × ℝ))} {bcs : List Circ} {others : List String}
    {n N : Nat} (hn : 0 < n) (hb : bound qs (some bs) = some bcs) (hbl : bcs.length = n)
    (hacc : ∀ c ∈ bcs, c.nq ≤ NQUBITS ∧ (propLoop c.data ⟨true, [], []⟩).measured ≠ []) {shots : Shots} (hN : ShotsAre shots N)
    {keyss : List (List (List Bool))} (hkl : keyss.length = n) {ys : List ℝ} (hyl : ys.length = n)
    (H : ∀ i (h1 : i < bcs.length) (h2 : i < keyss.length) (h3 : i < ys.length), ∀ h', Has h.ms h' →
      Meets cfg.sqrt (run bcs[i] ⟨some N, false⟩) h' (Memory keyss[i]) ys[i]) :
    Yields cfg ((runJob qs ⟨shots, some bs, others, false, none⟩).bind' (pick (List.range n))) σ (Memories keyss) ys.prod := by
  classical
  obtain ⟨hv, hval, hN0⟩ := hN.valid
  have hjob := runJob_meets (sqrt := cfg.sqrt) (ms := h.ms) (ps := qs) (o := ⟨shots, some bs, others, false, none⟩)
    hv hval hb (fun c hcc => ⟨(hacc c hcc).1, .inr (hacc c hcc).2⟩) (keyss.map Memory)
    ys (by simp only [List.length_map]; omega) (by simp only [List.length_map]; omega) (by
      intro i h1 h2 h3
      simp only [List.getElem_map]
      exact ⟨(by rintro ⟨_, h, _⟩; cases h), fun h' hh' => H i h1 (by omega) (by omega) h' hh'⟩) h ⟨[], by simp⟩
  refine Meets.yields hR ?_
  have := bind_meets_ends (sqrt := cfg.sqrt) (ms := h.ms) (T1 := Finished (keyss.map Memory)) (T := Memories keyss) (y := 1)
    (f := pick (List.range n)) (by rintro ⟨_, h, _⟩; cases h) (by rintro ⟨_, h, _⟩; cases h)
    (fun j hj h' _ => by
      rcases hj with rfl | ⟨rs, cs', rfl, hb', hl'⟩
      · rw [if_neg (by rintro ⟨_, h, _⟩; cases h), pick_failed hn]
        exact ⟨trivial, trivial, by rw [prob, if_neg]; rintro ⟨_, h, _⟩; cases h⟩
      · have hb'' : some bcs = some cs' := hb.symm.trans hb'
        cases hb''
        rw [← hbl, ← hl', pick_done]
        refine ⟨trivial, trivial, ?_⟩
        rw [prob]
        simp only [memories_iff]) _ (runJob_ends _ _) (Keeps.runJob _ _) h ⟨[], by simp⟩ ⟨hjob.1, hjob.2.1⟩
  refine cast (congrArg _ ?_) this
  rw [hjob.2.2, mul_one]

/-- **C47, what is sampled.**  After any history of the engine and any calls of the sampler, a call in which no circuit with
parameters occurs twice returns one result per circuit, in order; the memories behind the quasi-distributions are
distributed as independent executions of the transpiled circuits *as the backend reads them* (`ReadAs`). -/
theorem C47_actual (hR : Hist cfg thr thrM cs h σ os) (hsq : ∀ x, 0 ≤ x → cfg.sqrt x * cfg.sqrt x = x)
    (hQ : QiskitAny h.ms key tr P) {s : Sampler Key} (hs : SReach key tr P s) {ps : List PCirc} (hne : ps ≠ []) (hP : ∀ p ∈ ps, P p)
    {vals : List (List ℝ)} (hv : List.Forall₂ (fun p v => v.length = p.params.length) ps vals)
    (honce : ps.Pairwise fun p q => key p = key q → q.params = [])
    {shots : Shots} {others : List String} {N : Nat} (hN : ShotsAre shots N)
    {rcs : List Circ} (hr : List.Forall₂ ReadAs (List.zipWith (fun p v => PCirc.withValues (tr p) v) ps vals) rcs)
    {keyss : List (List (List Bool))} (hk : keyss.length = ps.length) (hkl : ∀ keys ∈ keyss, keys.length = N) :
    Yields cfg (samplerRun key tr s ps vals shots others).2 σ (Memories keyss)
      ((List.zipWith (fun c keys => (keys.map (Circ.prob c)).prod) rcs keyss).prod) := by
  obtain ⟨qs, bs, bcs, hrun, hb, hbl, hget⟩ := sampler_job' (fun p q hp hq e => by rw [hQ.key p q hp hq e]) hQ.params hs hP hv honce
    shots others
  have hlv := hv.length_eq
  have hrl := hr.length_eq
  rw [List.length_zipWith] at hrl
  have hget' : ∀ i (h1 : i < bcs.length) (h2 : i < ps.length) (h3 : i < vals.length), bcs[i] = PCirc.withValues (tr ps[i]) vals[i] := by
    intro i h1 h2 h3
    obtain ⟨q, hq, hkq, e⟩ := hget i h1 h2 h3
    rw [e, hQ.key q _ hq (hP _ (List.getElem_mem _)) hkq]
  have hcan : ∀ i (h1 : i < bcs.length), CanRun h.ms bcs[i] := by
    intro i h1
    rw [hget' i h1 (by omega) (by omega)]
    exact hQ.runs _ (hP _ (List.getElem_mem _)) _
  have hN0 := hN.valid.2.2
  rw [hrun]
  refine memories_yields hR (List.length_pos_of_ne_nil hne) hb hbl (fun c hc => ?_) hN hk (by simp; omega) ?_
  · obtain ⟨i, hi, rfl⟩ := List.getElem_of_mem hc
    exact ⟨(hcan i hi).lim, (hcan i hi).meas⟩
  · intro i h1 h2 h3 h' hh'
    have hl := hkl _ (List.getElem_mem h2)
    rw [List.getElem_zipWith]
    have := List.Forall₂.get hr (i := i) (by rw [List.length_zipWith]; omega) (by omega)
    rw [List.get_eq_getElem, List.getElem_zipWith] at this
    refine canRun_meets hsq (hcan i h1) (rc := rcs[i]'(by omega)) ?_ (by intro h0; rw [h0] at hl; simp at hl; omega) (by rw [hl])
      (by intro e; cases e) hh'
    rw [hget' i h1 (by omega) (by omega)]
    exact this

/-- A circuit with an open control and one with a condition on a register at an offset, as circuits without parameters. -/
def openP : PCirc := ⟨[], fun _ => openCtrl⟩
@[inherit_doc openP] def offsetP : PCirc := ⟨[], fun _ => offsetReg⟩

theorem qiskitAny_demo (ms : List (Mat ℝ)) : QiskitAny ms (id : PCirc → PCirc) id (fun p => p = openP ∨ p = offsetP) where
  key := fun p q _ _ h => h
  params := fun _ _ => rfl
  runs := by
    rintro p (rfl | rfl) v
    · exact openCtrl_canRun ms
    · exact offsetReg_canRun ms

open Classical in
/-- A call with both, after a call of the sampler with the second: what is counted are the outcomes of other circuits. -/
example (hR : Hist cfg thr thrM cs h σ os) (hsq : ∀ x, 0 ≤ x → cfg.sqrt x * cfg.sqrt x = x) (k1 k2 : List Bool) :
    Yields cfg (samplerRun id id (samplerRun id id (.new : Sampler PCirc) [offsetP] [[]] .absent []).1 [openP, offsetP] [[], []]
      (.int 1) []).2 σ (Memories [[k1], [k2]]) (openCtrl'.prob k1 * 1 * (offsetReg'.prob k2 * 1 * 1)) :=
  C47_actual (s := (samplerRun id id (.new : Sampler PCirc) [offsetP] [[]] .absent []).1) hR hsq (qiskitAny_demo h.ms)
    (SReach.call SReach.new (by simp)) (ps := [openP, offsetP]) (by simp) (by simp) (vals := [[], []])
    (.cons rfl (.cons rfl .nil)) (by
      simp only [List.pairwise_cons, List.mem_cons, List.mem_nil_iff, or_false, id, List.Pairwise.nil, and_true]
      refine ⟨?_, fun _ h => h.elim⟩
      rintro q rfl _; rfl)
    (N := 1) (.inr ⟨rfl, by norm_num, by norm_num⟩)
    (rcs := [openCtrl', offsetReg']) (.cons readings.2.2 (.cons readings.2.1 .nil)) (keyss := [[k1], [k2]]) rfl (by simp)

end QDD.Props
