import Verif.Props.Sampler
import Verif.Props.EstApprox
/-!
# C71: the sampler without sampling
-/

set_option linter.unusedSectionVars false
set_option linter.unusedVariables false
set_option linter.unusedSimpArgs false

namespace QDD.Props
open Spec Api Gate Finset Py Py.Client

variable {cfg : Cfg ℝ} {thr thrM : Nat} {cs : List (Cmd ℝ)} {h : Heap ℝ} {σ : Sys ℝ} {os : List (Obs ℝ)}
variable {Key : Type} [DecidableEq Key] {key : PCirc → Key} {tr : PCirc → PCirc} {P : PCirc → Prop}

/-- The final state of the circuit can be read out: at most 30 qubits, as many clbits, clbit `q` measured last from qubit
`q`, nothing conditional, no instruction after the measurement of its qubit. -/
structure Direct (c : Circ) : Prop where
  few : c.nq ≤ 30
  clbits : c.nc = c.nq
  stable : (classify c).stable = true
  plain : ∀ x ∈ c.data, x.cond = none
  map : ∀ q < c.nq, (classify c).final.lookup q = some q

/-- The answers are the results of the circuits, in order, holding these probabilities of the outcomes 0, 1, 2, … -/
def Exact (ds : List (List ℝ)) (r : Option (List Result)) : Prop := ∃ rs, r = some rs ∧ rs.map (·.probs) = ds.map some

/-- What a call without repeated parametrised circuits does: one job, answered in order. -/
theorem sampler_job' (hK : ∀ p q, P p → P q → key p = key q → p.params = q.params) (hT : ∀ p, P p → (tr p).params = p.params) {s : Sampler Key} (hs : SReach key tr P s) {ps : List PCirc}
    (hP : ∀ p ∈ ps, P p) {vals : List (List ℝ)} (hv : List.Forall₂ (fun p v => v.length = p.params.length) ps vals)
    (honce : ps.Pairwise fun p q => key p = key q → q.params = []) (shots : Shots) (others : List String) :
    ∃ (qs : List PCirc) (bs : List (List (Nat × ℝ))) (bcs : List Circ), (samplerRun key tr s ps vals shots others).2 =
        (runJob qs ⟨shots, some bs, others, false, none⟩).bind' (pick (List.range ps.length)) ∧
      bound qs (some bs) = some bcs ∧ bcs.length = ps.length ∧
      ∀ i (h1 : i < bcs.length) (h2 : i < ps.length) (h3 : i < vals.length), ∃ q, P q ∧ key q = key ps[i] ∧ bcs[i] = PCirc.withValues (tr q) vals[i] := by
  classical
  obtain ⟨Q, hPQ, hF, hinj, hE⟩ := registered' (s := s) hK hs hP hv.length_eq hv
  have hlv := hv.length_eq
  have hli := hF.length_eq
  unfold samplerRun
  dsimp only
  unfold samplerCall
  generalize register key ps s = r at *
  obtain ⟨s1, idx⟩ := r
  dsimp only at *
  have hsameQ : ∀ i (h1 : i < ps.length) (h2 : i < idx.length), (Q idx[i]).params = ps[i].params := fun i h1 h2 =>
    hK _ _ (hPQ _ (List.getElem_mem h2)) (hP _ (List.getElem_mem h1)) (forall2_get hF i h1 h2)
  set m := List.zipWith (fun i v => (i, tr (Q i), (Q i).params.zip v)) idx vals with hm
  have hml : m.length = ps.length := by rw [hm]; simp; omega
  have hpw : m.Pairwise fun a b => b.2.2 ≠ [] → a.1 ≠ b.1 := by
    rw [List.pairwise_iff_getElem]
    intro i j hi hj hij hne heq
    simp only [hm, List.getElem_zipWith] at hne heq
    have h1 := forall2_get hF i (by omega) (by omega)
    have h2 := forall2_get hF j (by omega) (by omega)
    have h3 := (List.pairwise_iff_getElem.1 honce) i j (by omega) (by omega) hij (by rw [← h1, ← h2, heq])
    rw [hsameQ j (by omega) (by omega), h3] at hne
    exact hne rfl
  rw [collectExps_plain _ m _ hE hpw (by simp)]
  dsimp only
  have hind : (EM.indices ⟨[] ++ m.map (·.1), [] ++ m.map (·.2.1), [] ++ m.map (·.2.2),
      [] ++ (List.range m.length).map (fun i => [0 + i]), 0 + m.length⟩) = List.range m.length := by
    unfold EM.indices
    dsimp only
    rw [List.nil_append, indices_plain, argsort_range]
  rw [hind, hml]
  simp only [List.nil_append]
  have hmget : ∀ i (hi : i < m.length), m[i] = (idx[i]'(by omega), tr (Q (idx[i]'(by omega))),
      (Q (idx[i]'(by omega))).params.zip (vals[i]'(by omega))) := by
    intro i hi; simp [hm]
  have hmem : ∀ y ∈ m, ∃ i v, i ∈ idx ∧ y = (i, tr (Q i), (Q i).params.zip v) ∧ v.length = (Q i).params.length := by
    intro y hy
    obtain ⟨i, hi, rfl⟩ := List.getElem_of_mem hy
    refine ⟨_, _, List.getElem_mem (by omega : i < idx.length), hmget i hi, ?_⟩
    rw [hsameQ i (by omega) (by omega)]
    exact forall2_get hv i (by omega) (by omega)
  refine ⟨_, _, m.map fun y => y.2.1.at_ fun k => (y.2.2.lookup k).getD 0, rfl, ?_, by simp [hml], ?_⟩
  · unfold bound
    dsimp only
    rw [List.zip_map']
    clear hm hml hpw hE hmget hind
    clear_value m
    induction m with
    | nil => rfl
    | cons y m ih =>
      obtain ⟨i, v, hi, rfl, hvl⟩ := hmem y (by simp)
      rw [List.map_cons, List.mapM_cons, ih (fun y hy => hmem y (by simp [hy]))]
      dsimp only
      unfold assign
      rw [if_pos]
      · rfl
      · rw [zip_fst _ _ hvl, hT _ (hPQ _ hi)]
        exact ⟨fun k hk => hk, fun k hk => hk⟩
  · intro i h1 h2 h3
    rw [List.getElem_map, hmget i (by omega)]
    refine ⟨Q (idx[i]'(by omega)), hPQ _ (List.getElem_mem _), forall2_get hF i h2 (by omega), ?_⟩
    unfold PCirc.withValues
    rw [hT _ (hPQ _ (List.getElem_mem _))]

/-- The same under the assumptions of C47. -/
theorem sampler_job {ms : List (Mat ℝ)} (hQ : Qiskit ms key tr P) {s : Sampler Key} (hs : SReach key tr P s) {ps : List PCirc}
    (hP : ∀ p ∈ ps, P p) {vals : List (List ℝ)} (hv : List.Forall₂ (fun p v => v.length = p.params.length) ps vals)
    (honce : ps.Pairwise fun p q => key p = key q → q.params = []) (shots : Shots) (others : List String) :
    ∃ (qs : List PCirc) (bs : List (List (Nat × ℝ))) (bcs : List Circ), (samplerRun key tr s ps vals shots others).2 =
        (runJob qs ⟨shots, some bs, others, false, none⟩).bind' (pick (List.range ps.length)) ∧
      bound qs (some bs) = some bcs ∧ bcs.length = ps.length ∧
      ∀ i (h1 : i < bcs.length) (h2 : i < ps.length) (h3 : i < vals.length), ∃ q, P q ∧ key q = key ps[i] ∧ Alike q ps[i] ∧ bcs[i] = PCirc.withValues (tr q) vals[i] := by
  obtain ⟨qs, bs, bcs, h1, h2, h3, h4⟩ := sampler_job' (fun p q hp hq h => (hQ.key p q hp hq h).1)
    (fun p hp => (hQ.transpile p hp).1) hs hP hv honce shots others
  refine ⟨qs, bs, bcs, h1, h2, h3, fun i k1 k2 k3 => ?_⟩
  obtain ⟨q, hq, hk, e⟩ := h4 i k1 k2 k3
  exact ⟨q, hq, hk, hQ.key _ _ hq (hP _ (List.getElem_mem _)) hk, e⟩

theorem exact_iff (ds : List (List ℝ)) (rs : List Result) : Exact ds (some rs) ↔ Finished (ds.map Probs) (some (.done rs)) := by
  rw [probs_iff]
  constructor
  · rintro ⟨_, h, h'⟩; cases h; exact h'
  · intro h; exact ⟨rs, rfl, h⟩

/-- What is assumed of Qiskit besides `Qiskit`: equal keys and transpilation keep the number of qubits, and the final
states of transpiled circuits can be read out (transpilation does not move the measurements). -/
structure QiskitD (key : PCirc → Key) (tr : PCirc → PCirc) (P : PCirc → Prop) : Prop where
  key : ∀ p q, P p → P q → key p = key q → ∀ v, (p.at_ v).nq = (q.at_ v).nq
  transpile : ∀ p, P p → ∀ v, ((tr p).at_ v).nq = (p.at_ v).nq
  direct : ∀ p, P p → ∀ v, Direct ((tr p).at_ v)

/-- The probabilities of the outcomes 0, 1, 2, … of a circuit. -/
noncomputable def outcomes (c : Circ) : List ℝ := (List.range (2 ^ c.nq)).map fun i => c.prob (bits c.nq i)

theorem alike_values {p q : PCirc} (h : Alike p q) (v : List ℝ) (k : List Bool) :
    (PCirc.withValues p v).prob k = (PCirc.withValues q v).prob k := by
  unfold PCirc.withValues
  rw [h.2, h.1]

open Classical in
/-- A job whose circuits have certain probabilities gives these, in order. -/
theorem exact_yields (hR : Hist cfg thr thrM cs h σ os) {qs : List PCirc} {bs : List (List (Nat × ℝ))} {bcs : List Circ} {others : List String}
    {n : Nat} (hn : 0 < n) (hb : bound qs (some bs) = some bcs) (hbl : bcs.length = n)
    (hacc : ∀ c ∈ bcs, c.nq ≤ NQUBITS ∧ (propLoop c.data ⟨true, [], []⟩).measured ≠ []) {ds : List (List ℝ)} (hdl : ds.length = n)
    (H : ∀ i (h1 : i < bcs.length) (h2 : i < ds.length), ∀ h', Has h.ms h' → Meets cfg.sqrt (run bcs[i] ⟨none, false⟩) h' (Probs ds[i]) 1) :
    Yields cfg ((runJob qs ⟨.none, some bs, others, false, none⟩).bind' (pick (List.range n))) σ (Exact ds) 1 := by
  classical
  have hjob := runJob_meets (sqrt := cfg.sqrt) (ms := h.ms) (ps := qs) (o := ⟨.none, some bs, others, false, none⟩)
    (sh := none) trivial rfl hb (fun c hcc => ⟨(hacc c hcc).1, .inr (hacc c hcc).2⟩) (ds.map Probs)
    (bcs.map fun _ => 1) (by simp [hbl, hdl]) (by simp [hbl, hdl]) (by
      intro i h1 h2 h3
      simp only [List.getElem_map]
      exact ⟨(by rintro ⟨_, h, _⟩; cases h), fun h' hh' => H i h1 (by omega) h' hh'⟩) h ⟨[], by simp⟩
  refine Meets.yields hR ?_
  have := bind_meets_ends (sqrt := cfg.sqrt) (ms := h.ms) (T1 := Finished (ds.map Probs)) (T := Exact ds) (y := 1)
    (f := pick (List.range n)) (by rintro ⟨_, h, _⟩; cases h) (by rintro ⟨_, h, _⟩; cases h)
    (fun j hj h' _ => by
      rcases hj with rfl | ⟨rs, cs', rfl, hb', hl'⟩
      · rw [if_neg (by rintro ⟨_, h, _⟩; cases h), pick_failed hn]
        exact ⟨trivial, trivial, by rw [prob, if_neg]; rintro ⟨_, h, _⟩; cases h⟩
      · have hb'' : some bcs = some cs' := hb.symm.trans hb'
        cases hb''
        rw [← hbl, ← hl', pick_done]
        refine ⟨trivial, trivial, ?_⟩
        rw [prob]
        simp only [exact_iff]) _ (runJob_ends _ _) (Keeps.runJob _ _) h ⟨[], by simp⟩ ⟨hjob.1, hjob.2.1⟩
  refine cast (congrArg _ ?_) this
  rw [hjob.2.2, mul_one]
  simp

open Classical in
/-- **C71.**  After any history of the engine and any calls of the sampler, a call with `shots=None` in which no circuit
with parameters occurs twice returns, with certainty, for every circuit in order the probabilities of its outcomes with
its parameter values: entry `i` of result `j` is the probability that clbit `q` of circuit `j` is bit `q` of `i` for
all `q`.  Missing: circuits that do not measure every qubit `q` last, into clbit `q` (false, `C71_wrong`), and repeated
circuits with parameters (false, `C47_false`). -/
theorem C71_partial (hR : Hist cfg thr thrM cs h σ os) (hQ : Qiskit h.ms key tr P) (hD : QiskitD key tr P)
    {s : Sampler Key} (hs : SReach key tr P s) {ps : List PCirc} (hne : ps ≠ []) (hP : ∀ p ∈ ps, P p)
    {vals : List (List ℝ)} (hv : List.Forall₂ (fun p v => v.length = p.params.length) ps vals)
    (honce : ps.Pairwise fun p q => key p = key q → q.params = []) {others : List String} :
    Yields cfg (samplerRun key tr s ps vals .none others).2 σ (Exact (List.zipWith (fun p v => outcomes (PCirc.withValues p v)) ps vals)) 1 := by
  classical
  obtain ⟨qs, bs, bcs, hrun, hb, hbl, hget⟩ := sampler_job hQ hs hP hv honce .none others
  have hlv := hv.length_eq
  set ds := List.zipWith (fun p v => outcomes (PCirc.withValues p v)) ps vals with hds
  have hdl : ds.length = ps.length := by rw [hds]; simp; omega
  have hgood : ∀ c ∈ bcs, Supported h.ms c ∧ Direct c ∧ (propLoop c.data ⟨true, [], []⟩).measured ≠ [] := by
    intro c hc
    obtain ⟨i, hi, rfl⟩ := List.getElem_of_mem hc
    obtain ⟨q, hq, _, _, e⟩ := hget i hi (by omega) (by omega)
    rw [e]
    have hr := hQ.runs q hq
    refine ⟨hr.supported _, hD.direct q hq _, fun h0 => ?_⟩
    obtain ⟨x, hx, hop⟩ := hr.measured fun k => (((tr q).params.zip (vals[i]'(by omega))).lookup k).getD 0
    refine (measured_iff ?_).1 h0 x hx hop
    intro y hy hop' h'
    have := ((hr.supported _).fine y hy).arity
    rw [hop', h'] at this
    simp [Op.arity] at this
  rw [hrun]
  refine exact_yields hR (List.length_pos_of_ne_nil hne) hb hbl (fun c hc => ⟨(hgood c hc).1.lim, (hgood c hc).2.2⟩) hdl ?_
  intro i h1 h2 h' hh'
  obtain ⟨g1, g2, g3⟩ := hgood _ (List.getElem_mem h1)
  obtain ⟨q, hq, hkq, hal, e⟩ := hget i h1 (by omega) (by omega)
  have := probs_meets (sqrt := cfg.sqrt) g1 g2.few g2.stable g2.plain g2.clbits g2.map (o := ⟨none, false⟩) (.inr g3) rfl hh'
  refine cast ?_ this
  congr 2
  have hdi : ds[i]'(by omega) = outcomes (PCirc.withValues (ps[i]'(by omega)) (vals[i]'(by omega))) := by simp [hds]
  rw [hdi]
  unfold outcomes
  have hn : bcs[i].nq = (PCirc.withValues (ps[i]'(by omega)) (vals[i]'(by omega))).nq := by
    rw [e]
    unfold PCirc.withValues
    rw [hD.transpile q hq, hD.key q _ hq (hP _ (List.getElem_mem _)) hkq, (hQ.transpile q hq).1, hal.1]
  rw [hn]
  refine List.map_congr_left fun j _ => ?_
  rw [e, alike_values (hQ.transpile q hq), alike_values hal]

/-- `crossed` as a circuit without parameters. -/
def crossP : PCirc := ⟨[], fun _ => crossed⟩

theorem crossP_runnable (ms : List (Mat ℝ)) : Runnable ms crossP where
  supported := fun _ => crossed_supported ms
  plain := by
    intro v _ x hx _
    simp only [crossP, crossed, List.mem_cons, List.mem_nil_iff, or_false] at hx
    rcases hx with rfl | rfl | rfl <;> rfl
  measured := fun v => ⟨mI 0 1, by simp [crossP, crossed], rfl⟩

open Classical in
/-- **C71 is false for other measurement maps**: the sampler reports the outcome 1 ("01") with probability 1 where 2
("10") is certain. -/
theorem C71_wrong (hR : Hist cfg thr thrM cs h σ os) {s : Sampler PCirc} (hs : SReach (id : PCirc → PCirc) id (fun p => p = crossP) s)
    {others : List String} :
    (∀ v, (crossP.at_ v).prob (bits 2 2) = 1) ∧
    Yields cfg (samplerRun id id s [crossP] [[]] .none others).2 σ (Exact [[0, 1, 0, 0]]) 1 := by
  have hQ : Qiskit h.ms (id : PCirc → PCirc) id (fun p => p = crossP) := {
    key := by rintro p q _ _ rfl; exact ⟨rfl, fun _ _ => rfl⟩
    transpile := fun p _ => ⟨rfl, fun _ _ => rfl⟩
    runs := by rintro p rfl; exact crossP_runnable h.ms }
  refine ⟨fun v => (C37_false_map hR (o := ⟨none, false⟩) rfl).1, ?_⟩
  obtain ⟨qs, bs, bcs, hrun, hb, hbl, hget⟩ := sampler_job hQ hs (ps := [crossP]) (by simp) (vals := [[]]) (.cons rfl .nil) (by simp) .none others
  have hbc : bcs = [crossed] := by
    obtain ⟨q, hq, _, _, e⟩ := hget 0 (by rw [hbl]; simp) (by simp) (by simp)
    subst hq
    match bcs, hbl, e with
    | [c], _, e => exact congrArg (fun c => [c]) (e.trans rfl)
  subst hbc
  rw [hrun]
  refine exact_yields hR (by simp) hb hbl (fun c hc => ?_) (by simp) ?_
  · simp only [List.mem_singleton] at hc
    subst hc
    exact ⟨by decide, by decide⟩
  · intro i h1 h2 h' hh'
    obtain rfl : i = 0 := by simp at h1; exact h1
    exact crossed_meets rfl hh'

/-! ### A case -/

theorem rxP_direct (v : Nat → ℝ) : Direct (rxP.at_ v) where
  few := (by decide : 1 ≤ 30)
  clbits := rfl
  stable := rfl
  plain := by
    intro x hx
    simp only [rxP, List.mem_cons, List.mem_nil_iff, or_false] at hx
    rcases hx with rfl | rfl <;> rfl
  map := by
    intro q hq
    obtain rfl : q = 0 := by simp [rxP] at hq; exact hq
    rfl

theorem xP_direct (v : Nat → ℝ) : Direct (xP.at_ v) where
  few := (by decide : 1 ≤ 30)
  clbits := rfl
  stable := rfl
  plain := by
    intro x hx
    simp only [xP, List.mem_cons, List.mem_nil_iff, or_false] at hx
    rcases hx with rfl | rfl <;> rfl
  map := by
    intro q hq
    obtain rfl : q = 0 := by simp [xP] at hq; exact hq
    rfl

theorem qiskitD_demo : QiskitD (id : PCirc → PCirc) id (fun p => p = rxP ∨ p = xP) where
  key := by rintro p q _ _ rfl v; rfl
  transpile := fun _ _ _ => rfl
  direct := by
    rintro p (rfl | rfl) v
    · exact rxP_direct v
    · exact xP_direct v

open Classical in
/-- A call with the circuits `[x, rx, x]` and values `[[], [θ], []]` on a sampler used before. -/
example (hR : Hist cfg thr thrM cs h σ os) (θ : ℝ) :
    Yields cfg (samplerRun id id (samplerRun id id (.new : Sampler PCirc) [rxP] [[1]] .absent []).1 [xP, rxP, xP] [[], [θ], []]
      .none []).2 σ (Exact [outcomes (PCirc.withValues xP []), outcomes (PCirc.withValues rxP [θ]), outcomes (PCirc.withValues xP [])]) 1 :=
  C71_partial (s := (samplerRun id id (.new : Sampler PCirc) [rxP] [[1]] .absent []).1) hR (qiskit_demo h.ms) qiskitD_demo
    (SReach.call SReach.new (by simp)) (ps := [xP, rxP, xP]) (by simp) (by simp) (vals := [[], [θ], []])
    (.cons rfl (.cons rfl (.cons rfl .nil))) (by
      simp only [List.pairwise_cons, List.mem_cons, List.mem_nil_iff, or_false, id, List.Pairwise.nil, and_true]
      refine ⟨?_, ?_, fun _ h => h.elim⟩
      · rintro q (rfl | rfl) h
        · exact absurd (congrArg PCirc.params h) (by simp [xP, rxP])
        · rfl
      · rintro q rfl h; rfl)

end QDD.Props
