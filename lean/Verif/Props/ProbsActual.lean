import Verif.Props.SampExact
/-!
# What is returned without shots whatever is measured (C37, C71)
-/

set_option linter.unusedSectionVars false
set_option linter.unusedVariables false
set_option linter.unusedSimpArgs false

namespace QDD.Props
open Spec Api Gate Finset Py Py.Client

variable {cfg : Cfg ℝ} {thr thrM : Nat} {cs : List (Cmd ℝ)} {h : Heap ℝ} {σ : Sys ℝ} {os : List (Obs ℝ)}

/-- Is it a measurement? -/
def isM (x : Inst) : Bool := match x.op with | .measure => true | _ => false

/-- The circuit without its measurements, then every qubit `q` measured into clbit `q`. -/
def measuredAll (c : Circ) : Circ := ⟨c.nq, c.nq, c.phase, c.data.filter (fun x => !isM x) ++ (List.range c.nq).map fun q => mI q q⟩

theorem propLoop_gates : ∀ (xs ys : List Inst), (∀ x ∈ xs, isM x = false ∧ x.cond = none ∧ x.op ≠ .reset) →
    propLoop (xs ++ ys) ⟨true, [], []⟩ = propLoop ys ⟨true, [], []⟩ := by
  intro xs ys
  induction xs with
  | nil => intro _; rfl
  | cons x xs ih =>
    intro hx
    obtain ⟨h1, h2, h3⟩ := hx x (by simp)
    rw [List.cons_append, propLoop]
    have e : propStep x ⟨true, [], []⟩ = ⟨true, [], []⟩ := by
      obtain ⟨op, qargs, cargs, cond⟩ := x
      dsimp only at h2 h3
      subst h2
      cases op <;> simp_all [propStep, destabilises, isM]
    rw [e]
    simp only [Bool.not_true, Bool.false_and, Bool.false_eq_true, if_false]
    exact ih fun y hy => hx y (by simp [hy])

theorem propLoop_measures : ∀ (l : List Nat) (s : CircProp), s.stable = true →
    (propLoop (l.map fun q => mI q q) s).stable = true ∧ ((propLoop (l.map fun q => mI q q) s).measured ≠ [] ↔ (l ≠ [] ∨ s.measured ≠ [])) := by
  intro l
  induction l with
  | nil => intro s hs; exact ⟨hs, by simp [propLoop]⟩
  | cons q l ih =>
    intro s hs
    have e : propLoop ((q :: l).map fun q => mI q q) s = propLoop (l.map fun q => mI q q) (propStep (mI q q) s) := by
      rw [List.map_cons, propLoop]
      rw [if_neg]
      show ¬ ((!s.stable && _) = true)
      rw [hs]; simp
    rw [e]
    obtain ⟨h1, h2⟩ := ih (propStep (mI q q) s) hs
    refine ⟨h1, h2.trans ⟨fun _ => .inl (by simp), fun _ => .inr ?_⟩⟩
    show [q] ++ s.measured ≠ []
    simp

theorem fin_gates : ∀ (xs ys : List Inst) (val) (i), (∀ x ∈ xs, isM x = false) → Py.fin (xs ++ ys) val i = Py.fin ys val i := by
  intro xs ys
  induction xs with
  | nil => intro val i _; rfl
  | cons x xs ih =>
    intro val i hx
    have h1 := hx x (by simp)
    rw [List.cons_append, Py.fin]
    unfold isM at h1
    split
    · next h => rw [h] at h1; cases h1
    · exact ih val i fun y hy => hx y (by simp [hy])

theorem fin_measures : ∀ (l : List Nat) (val) (i c : Nat), Py.fin (l.map fun q => mI q q) val i c = if c ∈ l then i.testBit c else val c := by
  intro l
  induction l with
  | nil => intro val i c; rfl
  | cons q l ih =>
    intro val i c
    rw [List.map_cons]
    show Py.fin (l.map fun q => mI q q) (upd val q (i.testBit q)) i c = _
    rw [ih]
    unfold upd
    by_cases h1 : c ∈ l
    · simp [h1]
    · by_cases h2 : c = q
      · subst h2; simp
      · simp [h1, h2]

theorem evol_measures : ∀ (l : List Nat) {n : Nat} (f), evol n (l.map fun q => mI q q) f = f := by
  intro l
  induction l with
  | nil => intro n f; rfl
  | cons q l ih => intro n f; exact ih f

theorem evol_filter : ∀ (xs ys : List Inst) {n : Nat} (f), evol n (xs.filter (fun x => !isM x) ++ ys) f = evol n ys (evol n xs f) := by
  intro xs ys n
  induction xs with
  | nil => intro f; rfl
  | cons x xs ih =>
    intro f
    by_cases hx : isM x = true
    · rw [List.filter_cons_of_neg (by simp [hx])]
      have : x.oper n = none := by
        unfold isM at hx
        unfold Inst.oper
        split at hx
        · next h => rw [h]
        · cases hx
      rw [ih, evol, this]
    · rw [List.filter_cons_of_pos (by simpa using hx), List.cons_append, evol, evol]
      split <;> exact ih _

/-- Measuring everything at the end gives index `i` with the squared modulus of amplitude `i`. -/
theorem measuredAll_prob {ms : List (Mat ℝ)} {c : Circ} (hc : Supported ms c) (hst : (classify c).stable = true)
    (hcd : ∀ x ∈ c.data, x.cond = none) {i : Nat} (hi : i < 2 ^ c.nq) :
    (measuredAll c).prob (bits c.nq i) = (evol c.nq c.data zeroState i).mag2 := by
  have hsteady := propLoop_steady c.data _ hst
  have hg : ∀ x ∈ c.data.filter (fun x => !isM x), isM x = false ∧ x.cond = none ∧ x.op ≠ .reset := by
    intro x hx
    obtain ⟨h1, h2⟩ := List.mem_filter.1 hx
    exact ⟨by simpa using h2, hcd x h1, (hsteady x h1).2⟩
  have hs : Supported ms (measuredAll c) := {
    pos := hc.pos
    lim := hc.lim
    fine := by
      intro x hx
      rcases List.mem_append.1 hx with hx | hx
      · have hf := hc.fine x (List.mem_filter.1 hx).1
        obtain ⟨g1, g2, g3⟩ := hg x hx
        refine { distinct := hf.distinct, qubits := hf.qubits, clbits := ?_, arity := hf.arity, cond := by simp [g2], op := hf.op, aligned := by simp [g2] }
        have h1 := hf.arity
        have h2 := hf.op
        have : x.cargs = [] := by
          cases hop : x.op with
          | measure => simp [isM, hop] at g1
          | gate g ctl => rw [hop] at h1; exact h1.1
          | qdd hd k M => rw [hop] at h1; exact h1.1
          | barrier => rw [hop] at h1; exact h1
          | reset => exact absurd hop g3
          | unitary => rw [hop] at h2; exact h2.elim
          | other => rw [hop] at h2; exact h2.elim
        rw [this]; simp
      · obtain ⟨q, hq, rfl⟩ := List.mem_map.1 hx
        exact mI_fine (List.mem_range.1 hq) (List.mem_range.1 hq) (by simp) }
  have hloop : propLoop (measuredAll c).data ⟨true, [], []⟩ = propLoop ((List.range c.nq).map fun q => mI q q) ⟨true, [], []⟩ :=
    propLoop_gates _ _ hg
  have hst' : (propLoop (measuredAll c).data ⟨true, [], []⟩).stable = true := by
    rw [hloop]; exact (propLoop_measures _ _ rfl).1
  have hm : ∀ x ∈ (measuredAll c).data, x.op = .measure → x.cond = none := by
    intro x hx _
    rcases List.mem_append.1 hx with hx | hx
    · exact (hg x hx).2.1
    · obtain ⟨q, hq, rfl⟩ := List.mem_map.1 hx
      rfl
  obtain ⟨_, h2, _⟩ := propLoop_stable (measuredAll c).data (fun x hx => (hs.fine x hx).toWF) hm ⟨true, [], []⟩ (by simp) hst'
  rw [prob_deferred hs hm hst']
  have hev : evol (measuredAll c).nq (measuredAll c).data zeroState = evol c.nq c.data zeroState := by
    show evol c.nq (_ ++ _) zeroState = _
    rw [evol_filter, evol_measures]
  have hk : ∀ j, keyOf (measuredAll c).nc (readOff (propLoop (measuredAll c).data ⟨true, [], []⟩).final j) = bits c.nq j := by
    intro j
    rw [← keyOf_bits]
    unfold keyOf
    congr 1
    refine List.map_congr_left fun q hq => ?_
    rw [← h2 j]
    show Py.fin (_ ++ _) _ j q = _
    rw [fin_gates _ _ _ _ fun x hx => (hg x hx).1, fin_measures]
    exact if_pos hq
  rw [hev]
  show ∑ j ∈ range (2 ^ c.nq), _ = _
  rw [Finset.sum_eq_single i]
  · rw [if_pos (hk i).symm, mul_one]
  · intro j hj hne
    rw [if_neg, mul_zero]
    intro e
    rw [hk] at e
    exact hne (bits_inj hi (mem_range.1 hj) e).symm
  · intro h'; exact absurd (mem_range.2 hi) h'

/-- **C37, what is returned.**  Without shots, an unconditional circuit classified as stable gives the probabilities of
the outcomes of measuring all its qubits at the end, qubit `q` into clbit `q`, whatever its own measurements are. -/
theorem C37_actual (hR : Hist cfg thr thrM cs h σ os) {c : Circ} (hc : Supported h.ms c) (h30 : c.nq ≤ 30)
    (hst : (classify c).stable = true) (hcd : ∀ x ∈ c.data, x.cond = none) {o : Opts} (hmd : Measured c o) (hs : o.shots = none) :
    Yields cfg (run c o) σ (Probs (outcomes (measuredAll c))) 1 := by
  rw [run_some hc.lim hmd]
  have := probs_stable_meets (sqrt := cfg.sqrt) hc h30 rfl hst hcd hs (h := h) ⟨[], by simp⟩
  refine Meets.yields hR (cast ?_ this)
  congr 2
  refine List.map_congr_left fun i hi => ?_
  exact (measuredAll_prob hc hst hcd (List.mem_range.1 hi)).symm

/-- Two qubits of which only the second is measured, into clbit 0: `x(1)`, `measure(1, 0)`. -/
def second : Circ := ⟨2, 1, 0, [xI 1, mI 1 0]⟩

theorem second_supported (ms : List (Mat ℝ)) : Supported ms second where
  pos := by decide
  lim := by decide
  fine := by
    intro x hx
    simp only [second, List.mem_cons, List.mem_nil_iff, or_false] at hx
    rcases hx with rfl | rfl
    · exact xI_fine (by decide) (by simp)
    · exact mI_fine (by decide) (by decide) (by simp)

/-- A circuit with one clbit that is answered with four probabilities. -/
example (hR : Hist cfg thr thrM cs h σ os) : Yields cfg (run second ⟨none, false⟩) σ (Probs (outcomes (measuredAll second))) 1 ∧
    measuredAll second = ⟨2, 2, 0, [xI 1, mI 0 0, mI 1 1]⟩ :=
  ⟨C37_actual hR (second_supported h.ms) (by decide) rfl (by simp [second, xI, mI]) (.inr (by decide)) rfl, rfl⟩

variable {Key : Type} [DecidableEq Key] {key : PCirc → Key} {tr : PCirc → PCirc} {P : PCirc → Prop}

open Classical in
/-- **C71, what is returned.**  With `shots=None` the sampler returns, for every unconditional circuit whose final state can
be sampled, the probabilities of measuring all qubits of the transpiled circuit at the end, qubit `q` into clbit `q`,
whatever the circuit measures (`keys` tell circuits apart exactly). -/
theorem C71_actual (hR : Hist cfg thr thrM cs h σ os) (hQ : Qiskit h.ms key tr P) (hkey : ∀ p q, P p → P q → key p = key q → p = q)
    (hD : ∀ p, P p → ∀ v, ((tr p).at_ v).nq ≤ 30 ∧ (classify ((tr p).at_ v)).stable = true ∧ ∀ x ∈ ((tr p).at_ v).data, x.cond = none)
    {s : Sampler Key} (hs : SReach key tr P s) {ps : List PCirc} (hne : ps ≠ []) (hP : ∀ p ∈ ps, P p)
    {vals : List (List ℝ)} (hv : List.Forall₂ (fun p v => v.length = p.params.length) ps vals)
    (honce : ps.Pairwise fun p q => key p = key q → q.params = []) {others : List String} :
    Yields cfg (samplerRun key tr s ps vals .none others).2 σ
      (Exact (List.zipWith (fun p v => outcomes (measuredAll (PCirc.withValues (tr p) v))) ps vals)) 1 := by
  classical
  obtain ⟨qs, bs, bcs, hrun, hb, hbl, hget⟩ := sampler_job hQ hs hP hv honce .none others
  have hlv := hv.length_eq
  set ds := List.zipWith (fun p v => outcomes (measuredAll (PCirc.withValues (tr p) v))) ps vals with hds
  have hdl : ds.length = ps.length := by rw [hds]; simp; omega
  have hget' : ∀ i (h1 : i < bcs.length) (h2 : i < ps.length) (h3 : i < vals.length), bcs[i] = PCirc.withValues (tr ps[i]) vals[i] := by
    intro i h1 h2 h3
    obtain ⟨q, hq, hk, _, e⟩ := hget i h1 h2 h3
    rw [e, hkey q _ hq (hP _ (List.getElem_mem _)) hk]
  have hgood : ∀ c ∈ bcs, ∃ p v, P p ∧ c = PCirc.withValues (tr p) v ∧ (propLoop c.data ⟨true, [], []⟩).measured ≠ [] := by
    intro c hc
    obtain ⟨i, hi, rfl⟩ := List.getElem_of_mem hc
    have hp := hP _ (List.getElem_mem (by omega : i < ps.length))
    rw [hget' i hi (by omega) (by omega)]
    refine ⟨_, _, hp, rfl, fun h0 => ?_⟩
    have hr := hQ.runs _ hp
    obtain ⟨x, hx, hop⟩ := hr.measured fun k => (((tr (ps[i]'(by omega))).params.zip (vals[i]'(by omega))).lookup k).getD 0
    refine (measured_iff ?_).1 h0 x hx hop
    intro y hy hop' h'
    have := ((hr.supported _).fine y hy).arity
    rw [hop', h'] at this
    simp [Op.arity] at this
  rw [hrun]
  refine exact_yields hR (List.length_pos_of_ne_nil hne) hb hbl (fun c hc => ?_) hdl ?_
  · obtain ⟨p, v, hp, rfl, hm⟩ := hgood c hc
    exact ⟨((hQ.runs p hp).supported _).lim, hm⟩
  · intro i h1 h2 h' hh'
    obtain ⟨p, v, hp, e, hm⟩ := hgood _ (List.getElem_mem h1)
    have hsup := (hQ.runs p hp).supported fun k => (((tr p).params.zip v).lookup k).getD 0
    obtain ⟨d1, d2, d3⟩ := hD p hp fun k => (((tr p).params.zip v).lookup k).getD 0
    have hdi : ds[i] = outcomes (measuredAll bcs[i]) := by
      rw [hget' i h1 (by omega) (by omega)]; simp [hds]
    rw [hdi, run_some (by rw [e]; exact hsup.lim) (.inr hm), e]
    have := probs_stable_meets (sqrt := cfg.sqrt) hsup d1 rfl d2 d3 (o := ⟨none, false⟩) rfl hh'
    refine cast ?_ this
    congr 2
    exact List.map_congr_left fun j hj => (measuredAll_prob hsup d2 d3 (List.mem_range.1 hj)).symm

end QDD.Props
