import Verif.Num.MeasMachine
import Verif.Num.FloatR
import Verif.Props.Num
/-!
# C60: numerical accuracy of measurement

`Num.MRun` (Num/MeasMachine.lean): histories of calls and measurements in rounded arithmetic, with the engine's tolerances,
under any schedules, beside the specification over exact real numbers, which collapses its exact states as the returned
outcomes say.  `E` below is `√(2^k) · 1100 ε (k+1)² · cost`, the error bound of C57 for the measured state.
-/

set_option linter.unusedSectionVars false
set_option linter.unusedVariables false
set_option linter.unusedSimpArgs false

namespace QDD.Props
open QDD.Num QDD.Safe Prog
open Spec (C Vec Mat Heap Cmd Ctrl)

section generic
variable {R W : Type} [WOps W] [ROps R W] [RoundW W] [NumW W] [NumR R W] [RoundR R W] {env : Env W} {mt : Bool} {thr thrM : Nat}
variable {h : Heap ℝ} {q : Cost} {σ : Safe.Sys R W}

/-- The error bound of the state `V` with error count `c`. -/
noncomputable def errK (W : Type) [WOps W] [RoundW W] [NumW W] (k c : Nat) : ℝ := √(2 ^ k) * (1100 * NumW.eps W * ((k : ℝ) + 1) ^ 2) * c

/-- No schedule of the call reaches an error state; if its tasks run in parallel (all calls but products of matrices and SWAP),
wherever a schedule has got to the call can still be completed; it does complete, and whatever it returns satisfies `Q`. -/
structure Returns (env : Env W) (mt : Bool) (σ : Safe.Sys R W) (c : Safe.Call R W) (Q : Out R W → Safe.Sys R W → Prop) : Prop where
  safe : ¬ Safe.CanFault env mt σ c
  live : c.seq = false → ∀ fk p s, Steps (Safe.prog env mt fk σ.d c) σ.st p s → ∃ a s', Steps p s (Prog.ret a) s'
  some : ∃ o σ', Safe.Exec env mt σ c o σ'
  all : ∀ o σ', Safe.Exec env mt σ c o σ' → Q o σ'

theorem Returns.of_total {c : Safe.Call R W} (hc : c.seq = false) {Q : St W → Data R W × Out R W → Prop}
    (ht : ∀ mt fk, Api.Total (Safe.prog env mt fk σ.d c) σ.st Q) : Returns env mt σ c (fun o σ' => Q σ'.st (σ'.d, o)) := by
  refine ⟨?_, fun _ fk p s hs => ((ht mt fk).1 p s hs).2, ?_, ?_⟩
  · intro hf
    cases hf with
    | conc hc' hs hf => exact ((ht mt _).1 _ _ hs).1 hf
    | seq hc' hs => rw [hc] at hc'; cases hc'
  · obtain ⟨⟨d, o⟩, s', hs⟩ := ((ht mt fun _ => false).1 _ _ .refl).2
    exact ⟨o, ⟨d, s'⟩, .conc hc hs⟩
  · intro o σ' he
    cases he with
    | conc h1 h2 => exact (ht _ _).2 _ _ h2
    | seq h1 h2 => rw [hc] at h1; cases h1

theorem Returns.mono {c : Safe.Call R W} {Q Q' : Out R W → Safe.Sys R W → Prop} (hr : Returns env mt σ c Q)
    (hq : ∀ o σ', Safe.Exec env mt σ c o σ' → Q o σ' → Q' o σ') : Returns env mt σ c Q' :=
  ⟨hr.safe, hr.live, hr.some, fun o σ' he => hq o σ' he (hr.all o σ' he)⟩

/-- **C60, read-out.**  After any history of calls and measurements `getVector` returns the exact amplitudes, the exact state
having collapsed to the outcomes that were returned, within `E + √(2^k) · 1100 ε (k+1)²` in 2-norm. -/
theorem C60_getVector (hR : MRun env mt thr thrM h q σ) {v : Nat} {V : Vec ℝ} (hv : h.vs[v]? = some V) (hk : V.k ≤ 30)
    (hb : errK W V.k (q.vs.getD v 0) < 1) :
    Returns env mt σ (.getVector v) fun o σ' => ∃ a, o = .vec a ∧ a.dim = 2 ^ V.k ∧ ∃ x : Nat → W,
      (∀ i < 2 ^ V.k, a.cell i = some (x i)) ∧
      √(∑ i ∈ Finset.range (2 ^ V.k), ‖NumW.val (x i) - (⟨(V.f i).r, (V.f i).i⟩ : ℂ)‖ ^ 2) ≤ errK W V.k (q.vs.getD v 0 + 1) := by
  have ha := hR.acc
  have hb' : Budget h q (.getVector v : Safe.Call R W) := fun V' hV' => by
    rw [hv] at hV'; cases hV'; exact hb
  have hnz : V.Nonzero := by
    obtain ⟨c, e, _, _, hx⟩ := ha.near.vs.get hv
    by_contra hz
    have : n2 V.k (fun i => toC (V.f i)) = 0 := by
      rw [n2_congr (g := fun _ => 0) fun i hi => by
        have : V.f i = 0 := by
          by_contra h0
          exact hz ⟨i, hi, h0⟩
        rw [this, toC_zero]]
      simp [n2]
    rw [hx.unit] at this
    exact one_ne_zero this
  have hp : Spec.pre NQUBITS h (.getVector v) := ⟨V, hv, hnz, hk⟩
  have hst : Spec.step Real.sqrt h (.getVector v) =
      some (h, .vec ((List.range (2 ^ V.k)).map fun i => some (V.f i))) := by
    simp only [Spec.step, hv, Option.bind_eq_bind, Option.bind_some]
  have hr : Rounded (.getVector v : Safe.Call R W) (.getVector v) := .getVector v
  refine (Returns.of_total rfl fun mt fk => call_num mt fk ha.inv ha.near hr rfl hp hb' hst).mono fun o σ' he _ => ?_
  obtain ⟨a, e1, e2, x, e3, e4⟩ := (exec_num ha.inv ha.near hr hp hb' hst he).2.2.1 v V rfl hv
  refine ⟨a, e1, e2, x, e3, e4.trans (le_of_eq ?_)⟩
  unfold errK kap
  push_cast
  rfl

/-- **C60, matrices.**  After any history of calls and measurements `getMatrix` with `n` qubits returns, for a handle built by
gate calls and products of matrices, every entry of the exact operator (on `n` qubits, the identity on those above its own)
within `100 ε (n+1)² · (err + 1)`, `err` the count of the handle. -/
theorem C60_getMatrix (hR : MRun env mt thr thrM h q σ) {m n : Nat} {M : Mat ℝ} (hm : h.ms[m]? = some M) (hn : M.k ≤ n) (hk : n ≤ 30) :
    Returns env mt σ (.getMatrix m n) fun o σ' => MRun env mt thr thrM h q σ' ∧ ∃ a, o = .mat a ∧ a.dim = 2 ^ n ∧
      ∀ i < 2 ^ n, ∀ j < 2 ^ n, ∃ x : W, a.cell i j = some x ∧
        ‖NumW.val x - (⟨(M.at n i j).r, (M.at n i j).i⟩ : ℂ)‖ ≤ 100 * NumW.eps W * ((n : ℝ) + 1) ^ 2 * ((q.mat m).err + 1) := by
  obtain ⟨a, h1, h2, h3⟩ := getMatrix_total hR.acc hm hn hk
  exact (Returns.of_total rfl h3).mono fun o σ' he hq => ⟨.meas hR (.getMatrix o hm hn hk) he, a, hq.1, h1, h2⟩

/-- **C60, probabilities.**  Every entry of the array `probabilities` returns is within `4E + 384 k² u` of the exact Born
probability. -/
theorem C60_probabilities (hR : MRun env mt thr thrM h q σ) {v : Nat} {V : Vec ℝ} (hv : h.vs[v]? = some V) (hk : V.k ≤ 30)
    (hb : errK W V.k (q.vs.getD v 0) < 1) :
    Returns env mt σ (.probabilities v) fun o σ' => ∃ l : List R, o = .probs l ∧ l.length = 2 ^ V.k ∧
      ∀ (i : Nat) (x : R), l[i]? = some x →
        |NumR.rv W x - ((V.f i).r ^ 2 + (V.f i).i ^ 2)| ≤ 4 * errK W V.k (q.vs.getD v 0) + 384 * V.k ^ 2 * NumR.u R W := by
  obtain ⟨l, h1, h2, h3⟩ := probabilities_total hR.acc hv hk hb
  refine (Returns.of_total rfl h3).mono fun o σ' _ hq => ⟨l, hq.1, h1, fun i x hx => ?_⟩
  have := h2 i x hx
  simp only [Cx.mag2] at this
  rw [sq, sq]
  exact this

/-- **C60, sampling.**  The unit cube of the draws is cut into boxes, one for each basis state, whose volumes add up to one and
differ from the Born probabilities by at most `4E + 256 k² u` in total; whatever the draws, `measureAll` returns the basis
state whose box contains them (the string of its bits, highest qubit first), and no other box does. -/
theorem C60_measureAll (hR : MRun env mt thr thrM h q σ) {v : Nat} {V : Vec ℝ} (hv : h.vs[v]? = some V)
    (hb : errK W V.k (q.vs.getD v 0) < 1) :
    ∃ lo hi : Nat → Nat → ℝ, (∀ x u, 0 ≤ lo x u ∧ lo x u ≤ hi x u ∧ hi x u ≤ 1) ∧
      ∑ x ∈ Finset.range (2 ^ V.k), ∏ u ∈ Finset.range V.k, (hi x u - lo x u) = 1 ∧
      ∑ x ∈ Finset.range (2 ^ V.k), |∏ u ∈ Finset.range V.k, (hi x u - lo x u) - ((V.f x).r ^ 2 + (V.f x).i ^ 2)| ≤
        4 * errK W V.k (q.vs.getD v 0) + 256 * V.k ^ 2 * NumR.u R W ∧
      ∀ (collapse : Bool) (draw : Nat → R), (∀ u < V.k, 0 ≤ NumR.rv W (draw u) ∧ NumR.rv W (draw u) < 1) →
        ∃ x < 2 ^ V.k, (∀ y < 2 ^ V.k, y = x ↔ ∀ u < V.k, lo y u ≤ NumR.rv W (draw u) ∧ NumR.rv W (draw u) < hi y u) ∧
          Returns env mt σ (.measureAll v collapse draw) fun o σ' => o = .str (Spec.bits V.k x) ∧
            if collapse then MRun env mt thr thrM ⟨h.vs.set v (Spec.basis V.k x), h.ms⟩ { q with vs := q.vs.set v 1 } σ'
            else MRun env mt thr thrM h q σ' := by
  obtain ⟨lo, hi, h1, h2, h3, h4⟩ := measureAll_total (R := R) hR.acc hv hb
  refine ⟨lo, hi, h1, h2, ?_, fun collapse draw hd => ?_⟩
  · have : ∀ x, (V.f x).mag2 = (V.f x).r ^ 2 + (V.f x).i ^ 2 := fun x => by simp only [Cx.mag2]; ring
    simp only [this] at h3
    exact h3
  · obtain ⟨x, hx, h5, h6⟩ := h4 draw hd
    refine ⟨x, hx, h5, ?_⟩
    cases collapse
    · refine (Returns.of_total rfl fun mt fk => (h6 mt fk).1).mono fun o σ' he hq => ⟨hq.1, ?_⟩
      rw [if_neg (by decide)]
      exact .meas hR (.sample o hv hb hd) he
    · refine (Returns.of_total rfl fun mt fk => (h6 mt fk).2).mono fun o σ' he hq => ⟨hq.1, ?_⟩
      rw [if_pos rfl]
      have ho : o = .str (Spec.bits V.k x) := hq.1
      subst ho
      exact .meas hR (.measureAll hv hb hx hd) he

/-- **C60, one qubit.**  `measureOne` returns one number, the same in every schedule, within `4E + 2^(k+10) u` of the exact
probability that the qubit is zero.  It throws only if the tolerance it was given is not above that bound. -/
theorem C60_measureOne (hR : MRun env mt thr thrM h q σ) {v i : Nat} {V : Vec ℝ} (hv : h.vs[v]? = some V)
    (hb : errK W V.k (q.vs.getD v 0) ≤ 1 / 8) (hi : i < V.k) (hu : 2 ^ (V.k + 10) * NumR.u R W ≤ 1) :
    ∃ θ : R, |NumR.rv W θ - V.marg i false| ≤ 4 * errK W V.k (q.vs.getD v 0) + 2 ^ (V.k + 10) * NumR.u R W ∧
      ∀ tol : R, Returns env mt σ (.measureOne v i tol) fun o σ' => MRun env mt thr thrM h q σ' ∧
        (o = .num θ ∨ o = .throw ∧ NumR.rv W tol ≤ 4 * errK W V.k (q.vs.getD v 0) + 2 ^ (V.k + 10) * NumR.u R W) := by
  obtain ⟨θ, h1, h2⟩ := measureOne_total hR.acc hv hb hi hu
  refine ⟨θ, h1, fun tol => (Returns.of_total rfl fun mt fk => h2 mt fk tol).mono fun o σ' he hq => ⟨?_, hq.1⟩⟩
  exact .meas hR (.measureOne o hv hb hi hu) he

/-- **C60, collapse of one qubit.**  There is a threshold, the same for all draws and schedules, within `4E + 2^(k+10) u` of
the exact probability that the qubit is zero, such that `measureOneCollapsing` returns zero exactly if the draw is below it
(or throws, if the tolerance is not above the bound).  The state it leaves is the exact renormalised projection onto the
outcome, with error count `c`, for any `c` with `E + kap ≤ √p / 8` and `3E + 2 kap + 2^(k+8) u ≤ √p · kap · c`, `p` the
exact probability of the outcome. -/
theorem C60_measureOneCollapsing (hR : MRun env mt thr thrM h q σ) {v i : Nat} {V : Vec ℝ} (hv : h.vs[v]? = some V)
    (hb : errK W V.k (q.vs.getD v 0) ≤ 1 / 8) (hi : i < V.k) (hu : 2 ^ (V.k + 12) * NumR.u R W ≤ 1) :
    ∃ θ : R, |NumR.rv W θ - V.marg i false| ≤ 4 * errK W V.k (q.vs.getD v 0) + 2 ^ (V.k + 10) * NumR.u R W ∧
      ∀ tol draw : R, Returns env mt σ (.measureOneCollapsing v i tol draw) fun o σ' =>
        (o = .throw ∧ NumR.rv W tol ≤ 4 * errK W V.k (q.vs.getD v 0) + 2 ^ (V.k + 10) * NumR.u R W ∧ MRun env mt thr thrM h q σ') ∨
        ∃ b : Bool, (b = false ↔ NumR.rv W draw < NumR.rv W θ) ∧ o = .char b ∧
          ∀ c : Nat, errK W V.k (q.vs.getD v 0) + errK W V.k 1 ≤ √(V.marg i b) / 8 →
            3 * errK W V.k (q.vs.getD v 0) + 2 * errK W V.k 1 + 2 ^ (V.k + 8) * NumR.u R W ≤ √(V.marg i b) * errK W V.k c →
            MRun env mt thr thrM ⟨h.vs.set v (V.collapse Real.sqrt i b), h.ms⟩ { q with vs := q.vs.set v c } σ' := by
  obtain ⟨θ, h1, h2⟩ := measureOneCollapsing_total hR.acc hv hb hi hu
  refine ⟨θ, h1, fun tol draw => (Returns.of_total rfl fun mt fk => h2 mt fk tol draw).mono fun o σ' he hq => ?_⟩
  rcases hq with ⟨h3, h4, _⟩ | ⟨h3, _⟩
  · refine .inl ⟨h3, h4, ?_⟩
    have h3 : o = .throw := h3
    subst h3
    exact .meas hR (.throw hv hb hi hu) he
  · refine .inr ⟨_, ?_, h3, fun c hc1 hc2 => ?_⟩
    · by_cases hlt : NumR.rv W draw < NumR.rv W θ <;> simp [hlt]
    · have h3 : o = _ := h3
      subst h3
      have e1 : errK W V.k 1 = kap W V.k := by unfold errK kap; push_cast; ring
      rw [e1] at hc1 hc2
      exact .meas hR (.collapse hv hb hi hu ⟨hc1, hc2⟩) he

/-- A call of C57 within its precondition and its budget, after any history of calls and measurements. -/
theorem C60_call_total (hR : MRun env mt thr thrM h q σ) {c : Safe.Call R W} {c' : Cmd ℝ} (hr : Rounded c c')
    (hp : Spec.pre NQUBITS h c') (hb : Budget h q c) {h' o'} (hst : Spec.step Real.sqrt h c' = some (h', o')) :
    Returns env mt σ c fun o σ' => MRun env mt thr thrM h' (q.after c) σ' := by
  by_cases hc : c.seq = false
  · exact (Returns.of_total hc fun mt fk => call_num mt fk hR.acc.inv hR.acc.near hr hc hp hb hst).mono
      fun o σ' he _ => .call hR hr hp hb hst he
  · have hc1 : c.seq = true := by simpa using hc
    have ht := fun fk => seq_num mt fk hR.acc.inv hR.acc.near hr hc1 hp hb hst
    refine ⟨?_, fun h => absurd h hc, ?_, fun o σ' he => .call hR hr hp hb hst he⟩
    · intro hf
      cases hf with
      | conc hc' hs hf => exact hc hc'
      | @seq fk er _ hs =>
        obtain ⟨a, s', h1, _⟩ := ht fk
        rw [hs] at h1
        cases h1
    · obtain ⟨⟨d, o⟩, s', hs, _⟩ := ht fun _ => false
      exact ⟨o, _, .seq hc1 hs⟩

/-! ## Circuits -/

/-- The history of a circuit. -/
theorem circuit_mrun {n : Nat} (hn : 0 < n) (hN : n ≤ NQUBITS) (gs : List (Safe.Call R W × Mat ℝ))
    (hg : ∀ p ∈ gs, ∃ c', GateCall n p.1 c' p.2) (hb : errK W n (circErr gs) ≤ 1) (hσ : Execs env mt (Safe.Sys.init thr thrM) (circ n gs) σ) :
    ∃ (h : Heap ℝ) (q : Cost), MRun env mt thr thrM h q σ ∧ h.vs[gs.length]? = some (gs.foldl (fun V p => p.2.apply V) (Spec.basis n 0)) ∧
      q.vs.getD gs.length 0 = circErr gs := by
  have hb' : kap W n * circErr gs ≤ 1 := hb
  exact ⟨_, _, ((circuit_run (env := env) (mt := mt) (thr := thr) (thrM := thrM) hn hN gs hg hb').2 σ hσ).meas, states_last n gs,
    circCost_last gs⟩

/-- **C60, circuits, sampling.**  `measureAll` after a circuit (`circErr gs` is one more than its number of gates, each SWAP counting 184). -/
theorem C60_circuit_measureAll {n : Nat} (hn : 0 < n) (hN : n ≤ NQUBITS) (gs : List (Safe.Call R W × Mat ℝ))
    (hg : ∀ p ∈ gs, ∃ c', GateCall n p.1 c' p.2) (hb : errK W n (circErr gs) < 1)
    (hσ : Execs env mt (Safe.Sys.init thr thrM) (circ n gs) σ) :
    ∃ lo hi : Nat → Nat → ℝ, (∀ x u, 0 ≤ lo x u ∧ lo x u ≤ hi x u ∧ hi x u ≤ 1) ∧
      ∑ x ∈ Finset.range (2 ^ n), ∏ u ∈ Finset.range n, (hi x u - lo x u) = 1 ∧
      ∑ x ∈ Finset.range (2 ^ n), |∏ u ∈ Finset.range n, (hi x u - lo x u) -
          (((gs.foldl (fun V p => p.2.apply V) (Spec.basis n 0)).f x).r ^ 2 + ((gs.foldl (fun V p => p.2.apply V) (Spec.basis n 0)).f x).i ^ 2)| ≤
        4 * errK W n (circErr gs) + 256 * n ^ 2 * NumR.u R W ∧
      ∀ (collapse : Bool) (draw : Nat → R), (∀ u < n, 0 ≤ NumR.rv W (draw u) ∧ NumR.rv W (draw u) < 1) →
        ∃ x < 2 ^ n, (∀ y < 2 ^ n, y = x ↔ ∀ u < n, lo y u ≤ NumR.rv W (draw u) ∧ NumR.rv W (draw u) < hi y u) ∧
          Returns env mt σ (.measureAll gs.length collapse draw) fun o _ => o = .str (Spec.bits n x) := by
  obtain ⟨h, q, hR, hv, hq⟩ := circuit_mrun hn hN gs hg hb.le hσ
  have hk := states_k n gs
  obtain ⟨lo, hi, h1, h2, h3, h4⟩ := C60_measureAll hR hv (by rw [hk, hq]; exact hb)
  rw [hk] at h2 h3 h4
  rw [hq] at h3
  refine ⟨lo, hi, h1, h2, h3, fun collapse draw hd => ?_⟩
  obtain ⟨x, hx, h5, h6⟩ := h4 collapse draw hd
  exact ⟨x, hx, h5, h6.mono fun o σ' _ ho => ho.1⟩

/-- **C60, circuits, one qubit.**  `measureOneCollapsing` after a circuit (`circErr gs` is one more than its number of gates, each SWAP counting 184), if the tolerance is above the error. -/
theorem C60_circuit_collapse {n i : Nat} (hi : i < n) (hN : n ≤ 30) (gs : List (Safe.Call R W × Mat ℝ))
    (hg : ∀ p ∈ gs, ∃ c', GateCall n p.1 c' p.2) (hb : errK W n (circErr gs) ≤ 1 / 8) (hu : 2 ^ (n + 12) * NumR.u R W ≤ 1)
    (hσ : Execs env mt (Safe.Sys.init thr thrM) (circ n gs) σ) {V : Vec ℝ} (hV : V = gs.foldl (fun V p => p.2.apply V) (Spec.basis n 0)) :
    ∃ θ : R, |NumR.rv W θ - V.marg i false| ≤ 4 * errK W n (circErr gs) + 2 ^ (n + 10) * NumR.u R W ∧
      ∀ tol draw : R, 4 * errK W n (circErr gs) + 2 ^ (n + 10) * NumR.u R W < NumR.rv W tol →
        Returns env mt σ (.measureOneCollapsing gs.length i tol draw) fun o σ' =>
        ∃ b : Bool, (b = false ↔ NumR.rv W draw < NumR.rv W θ) ∧ o = .char b ∧
          ∀ c : Nat, errK W n (circErr gs) + errK W n 1 ≤ √(V.marg i b) / 8 →
            3 * errK W n (circErr gs) + 2 * errK W n 1 + 2 ^ (n + 8) * NumR.u R W ≤ √(V.marg i b) * errK W n c →
            errK W n c < 1 →
            Returns env mt σ' (.getVector gs.length) fun o σ' => ∃ a, o = .vec a ∧ a.dim = 2 ^ n ∧ ∃ x : Nat → W,
              (∀ j < 2 ^ n, a.cell j = some (x j)) ∧
              √(∑ j ∈ Finset.range (2 ^ n), ‖NumW.val (x j) - (⟨((V.collapse Real.sqrt i b).f j).r, ((V.collapse Real.sqrt i b).f j).i⟩ : ℂ)‖ ^ 2) ≤
                errK W n (c + 1) := by
  obtain ⟨h, q, hR, hv, hq⟩ := circuit_mrun (by omega) (by unfold NQUBITS; omega) gs hg (by linarith) hσ
  have hk : V.k = n := by rw [hV]; exact states_k n gs
  rw [← hV] at hv
  obtain ⟨θ, h1, h2⟩ := C60_measureOneCollapsing hR hv (by rw [hk, hq]; exact hb) (by rw [hk]; exact hi) (by rw [hk]; exact hu)
  rw [hk, hq] at h1
  refine ⟨θ, h1, fun tol draw ht => (h2 tol draw).mono fun o σ' _ ho => ?_⟩
  rcases ho with ⟨_, h3, _⟩ | ⟨b, h3, h4, h5⟩
  · rw [hk, hq] at h3
    exact absurd h3 (not_le.2 ht)
  · rw [hk, hq] at h5
    refine ⟨b, h3, h4, fun c c1 c2 c3 => ?_⟩
    have hR' := h5 c c1 c2
    have hlen : gs.length < h.vs.length := (List.getElem?_eq_some_iff.1 hv).1
    have hv' : (h.vs.set gs.length (V.collapse Real.sqrt i b))[gs.length]? = some (V.collapse Real.sqrt i b) := by
      rw [List.getElem?_set_self hlen]
    have hql : gs.length < q.vs.length := by
      by_contra hc
      rw [List.getD_eq_getElem?_getD, List.getElem?_eq_none (by omega)] at hq
      have : 1 ≤ circErr gs := by unfold circErr; omega
      rw [← hq] at this
      simp at this
    have hq' : (q.vs.set gs.length c).getD gs.length 0 = c := by
      rw [List.getD_eq_getElem?_getD, List.getElem?_set_self hql]; rfl
    have hk' : (V.collapse Real.sqrt i b).k = n := hk
    have := C60_getVector hR' hv' (by rw [hk']; exact hN) (by rw [hk', hq']; exact c3)
    rw [hk', hq'] at this
    exact this

end generic

open Rounding

/-! ## `double` -/

/-- The error bound of `double` arithmetic for a state on `n` qubits that went through `c` calls. -/
noncomputable def dblErr (n c : Nat) : ℝ := √(2 ^ n) * (1100 * (1 / 2 ^ 41) * ((n : ℝ) + 1) ^ 2) * c

section dbl
variable (ρ : Rounding ℝ) (hρ : AccurateR ρ) (sqrt : ρ.Num → ρ.Num) (hs : AccurateSqrt ρ sqrt)
include hρ hs

/-- **C60 for `double`, sampling.** -/
theorem C60_double_measureAll {env : Env (FCx ρ dblTol)} {mt : Bool} {thr thrM : Nat} {n : Nat} (hn : 0 < n) (hN : n ≤ NQUBITS)
    (gs : List (Safe.Call ρ.Num (FCx ρ dblTol) × Mat ℝ)) (hg : ∀ p ∈ gs, ∃ c', DblGate ρ hρ.accurate n p.1 c' p.2)
    (hb : dblErr n (circErr gs) < 1) (σ) (hσ : @Execs _ _ _ (measOps ρ dblTol sqrt) env mt (Safe.Sys.init thr thrM) (circ n gs) σ) :
    ∃ lo hi : Nat → Nat → ℝ, (∀ x u, 0 ≤ lo x u ∧ lo x u ≤ hi x u ∧ hi x u ≤ 1) ∧
      ∑ x ∈ Finset.range (2 ^ n), ∏ u ∈ Finset.range n, (hi x u - lo x u) = 1 ∧
      ∑ x ∈ Finset.range (2 ^ n), |∏ u ∈ Finset.range n, (hi x u - lo x u) -
          (((gs.foldl (fun V p => p.2.apply V) (Spec.basis n 0)).f x).r ^ 2 + ((gs.foldl (fun V p => p.2.apply V) (Spec.basis n 0)).f x).i ^ 2)| ≤
        4 * dblErr n (circErr gs) + 256 * n ^ 2 * (1 / 2 ^ 50) ∧
      ∀ (collapse : Bool) (draw : Nat → ρ.Num), (∀ u < n, 0 ≤ (draw u).1 ∧ (draw u).1 < 1) →
        ∃ x < 2 ^ n, (∀ y < 2 ^ n, y = x ↔ ∀ u < n, lo y u ≤ (draw u).1 ∧ (draw u).1 < hi y u) ∧
          @Returns _ _ _ (measOps ρ dblTol sqrt) env mt σ (.measureAll gs.length collapse draw) fun o _ => o = .str (Spec.bits n x) := by
  letI := measOps ρ dblTol sqrt
  letI := roundW ρ dblTol_nn dblTol_lt
  letI := numW ρ hρ.accurate
  letI := numR ρ hρ sqrt hs
  haveI := roundR ρ dblTol_nn dblTol_lt sqrt
  exact C60_circuit_measureAll (env := env) (mt := mt) (thr := thr) (thrM := thrM) hn hN gs hg hb hσ

/-- **C60 for `double`, collapse of one qubit.** -/
theorem C60_double_collapse {env : Env (FCx ρ dblTol)} {mt : Bool} {thr thrM : Nat} {n i : Nat} (hi : i < n) (hN : n ≤ 30)
    (gs : List (Safe.Call ρ.Num (FCx ρ dblTol) × Mat ℝ)) (hg : ∀ p ∈ gs, ∃ c', DblGate ρ hρ.accurate n p.1 c' p.2)
    (hb : dblErr n (circErr gs) ≤ 1 / 8) (σ) (hσ : @Execs _ _ _ (measOps ρ dblTol sqrt) env mt (Safe.Sys.init thr thrM) (circ n gs) σ)
    {V : Vec ℝ} (hV : V = gs.foldl (fun V p => p.2.apply V) (Spec.basis n 0)) :
    ∃ θ : ρ.Num, |θ.1 - V.marg i false| ≤ 4 * dblErr n (circErr gs) + 2 ^ (n + 10) * (1 / 2 ^ 50) ∧
      ∀ tol draw : ρ.Num, 4 * dblErr n (circErr gs) + 2 ^ (n + 10) * (1 / 2 ^ 50) < tol.1 →
        @Returns _ _ _ (measOps ρ dblTol sqrt) env mt σ (.measureOneCollapsing gs.length i tol draw) fun o σ' =>
        ∃ b : Bool, (b = false ↔ draw.1 < θ.1) ∧ o = .char b ∧
          ∀ c : Nat, dblErr n (circErr gs) + dblErr n 1 ≤ √(V.marg i b) / 8 →
            3 * dblErr n (circErr gs) + 2 * dblErr n 1 + 2 ^ (n + 8) * (1 / 2 ^ 50) ≤ √(V.marg i b) * dblErr n c →
            dblErr n c < 1 →
            @Returns _ _ _ (measOps ρ dblTol sqrt) env mt σ' (.getVector gs.length) fun o σ' => ∃ a, o = .vec a ∧ a.dim = 2 ^ n ∧
              ∃ x : Nat → FCx ρ dblTol, (∀ j < 2 ^ n, a.cell j = some (x j)) ∧
              √(∑ j ∈ Finset.range (2 ^ n), ‖(⟨(x j).r.1, (x j).i.1⟩ : ℂ) - ⟨((V.collapse Real.sqrt i b).f j).r, ((V.collapse Real.sqrt i b).f j).i⟩‖ ^ 2) ≤
                dblErr n (c + 1) := by
  letI := measOps ρ dblTol sqrt
  letI := roundW ρ dblTol_nn dblTol_lt
  letI := numW ρ hρ.accurate
  letI := numR ρ hρ sqrt hs
  haveI := roundR ρ dblTol_nn dblTol_lt sqrt
  have hu : (2 : ℝ) ^ (n + 12) * (1 / 2 ^ 50) ≤ 1 := by
    have : (2 : ℝ) ^ (n + 12) ≤ 2 ^ 42 := pow_le_pow_right₀ (by norm_num) (by omega)
    norm_num at this ⊢
    linarith
  exact C60_circuit_collapse (env := env) (mt := mt) (thr := thr) (thrM := thrM) hi hN gs hg hb hu hσ hV

end dbl

/-! ## Hypotheses are met -/

/-- C60 on the GHZ circuit of 10 qubits in 53-bit arithmetic, truncating, with a correctly rounded square root: the volumes of
the boxes of `measureAll` differ from the Born probabilities by less than `10^-4` in total. -/
example (env : Env (FCx (toZero 52 : Rounding ℝ) dblTol)) (mt : Bool) :
    (∃ σ, @Execs _ _ _ (measOps (toZero 52 : Rounding ℝ) dblTol (fsqrt _)) env mt (Safe.Sys.init 5 5) (circ 10 ghz) σ) ∧
    dblErr 10 (circErr ghz) < 1 ∧ 4 * dblErr 10 (circErr ghz) + 256 * (10 : ℕ) ^ 2 * (1 / 2 ^ 50) < 1 / 10 ^ 4 := by
  have hl : circErr ghz = 11 := ghz_err
  have h0 : √(2 ^ 10 : ℝ) = 32 := by
    rw [show (2 ^ 10 : ℝ) = 32 ^ 2 by norm_num, Real.sqrt_sq (by norm_num)]
  have hb : √(2 ^ 10) * (1100 * (1 / 2 ^ 41) * (((10 : Nat) : ℝ) + 1) ^ 2) * (circErr ghz : Nat) < 1 := by
    rw [hl, h0]; norm_num
  refine ⟨(C57_double (toZero 52) toZero_accurateR.accurate (fsqrt _) (by decide) (by decide) ghz ghz_ok hb).1, ?_, ?_⟩ <;>
    unfold dblErr <;> rw [hl, h0] <;> norm_num

/-- A Hadamard gate on qubit 0 of 2 qubits. -/
noncomputable def hadCirc : List (Safe.Call (toZero 52 : Rounding ℝ).Num (FCx (toZero 52) dblTol) × Mat ℝ) :=
  [(.gate 2 (fun r c => ⟨(toZero 52).rnd (hadR r c).r, (toZero 52).rnd (hadR r c).i⟩) 0 (Api.ctl []), ⟨2, Spec.gate1 2 hadR 0 []⟩)]

theorem hadCirc_ok : ∀ p ∈ hadCirc, ∃ c', DblGate (toZero 52) toZero_accurateR.accurate 2 p.1 c' p.2 := by
  intro p hp
  unfold hadCirc at hp
  rw [List.mem_singleton] at hp
  subst hp
  exact ⟨_, dblGate1 _ _ hadR_iso (by decide) (by decide) .nil (by simp) fun r _ c _ => hadR_small r c⟩

theorem hadCirc_amp (i : Nat) (hi : i < 4) : Spec.gate1 2 hadR 0 [] i 0 = (⟨if i < 2 then (√2)⁻¹ else 0, 0⟩ : C ℝ) := by
  have hs : ∀ x, Spec.sat [] 2 x := fun x => by simp [Spec.sat]
  unfold Spec.gate1
  interval_cases i
  · rw [if_pos (by decide), if_pos (hs 0)]; simp [hadR, Spec.bit]
  · rw [if_pos (by decide), if_pos (hs 1)]; simp [hadR, Spec.bit]
  · rw [if_neg (by decide)]; rfl
  · rw [if_neg (by decide)]; rfl

theorem hadCirc_marg (b : Bool) : (hadCirc.foldl (fun V p => p.2.apply V) (Spec.basis 2 0)).marg 0 b = 1 / 2 := by
  have h2 : (√2)⁻¹ * (√2)⁻¹ = (1 / 2 : ℝ) := by
    rw [← mul_inv, Real.mul_self_sqrt (by norm_num)]; norm_num
  have h3 : ∀ i < 4, (hadCirc.foldl (fun V p => p.2.apply V) (Spec.basis 2 0)).f i = (⟨if i < 2 then (√2)⁻¹ else 0, 0⟩ : C ℝ) := by
    intro i hi
    rw [← hadCirc_amp i hi]
    have h4 : i / 4 = 0 := by omega
    have h5 : i % 4 = i := by omega
    simp [hadCirc, Spec.Mat.apply, Spec.basis, Finset.sum_range_succ, Spec.Mat.at, h4, h5]
    intro h; omega
  have hk : (hadCirc.foldl (fun V p => p.2.apply V) (Spec.basis 2 0) : Vec ℝ).k = 2 := rfl
  unfold Spec.Vec.marg
  rw [hk]
  simp only [Finset.sum_range_succ, Finset.sum_range_zero, show (2 : Nat) ^ 2 = 4 from rfl]
  rw [h3 0 (by decide), h3 1 (by decide), h3 2 (by decide), h3 3 (by decide)]
  cases b <;> simp [Cx.mag2, Nat.testBit] <;> linarith

/-- C60 on that circuit: qubit 0 is measured with the default tolerance 0.001; then the state is read out within `10^-6` of the
exact collapsed state, for both outcomes. -/
example (env : Env (FCx (toZero 52 : Rounding ℝ) dblTol)) (mt : Bool) :
    (∃ σ, @Execs _ _ _ (measOps (toZero 52 : Rounding ℝ) dblTol (fsqrt _)) env mt (Safe.Sys.init 5 5) (circ 2 hadCirc) σ) ∧
    dblErr 2 (circErr hadCirc) ≤ 1 / 8 ∧ 4 * dblErr 2 (circErr hadCirc) + 2 ^ (2 + 10) * (1 / 2 ^ 50) < 1 / 1000 ∧
    ∀ b, dblErr 2 (circErr hadCirc) + dblErr 2 1 ≤ √((hadCirc.foldl (fun V p => p.2.apply V) (Spec.basis 2 0)).marg 0 b) / 8 ∧
      3 * dblErr 2 (circErr hadCirc) + 2 * dblErr 2 1 + 2 ^ (2 + 8) * (1 / 2 ^ 50) ≤
        √((hadCirc.foldl (fun V p => p.2.apply V) (Spec.basis 2 0)).marg 0 b) * dblErr 2 16 ∧
      dblErr 2 16 < 1 ∧ dblErr 2 (16 + 1) ≤ 1 / 10 ^ 6 := by
  have hl : circErr hadCirc = 2 := rfl
  have h0 : √(2 ^ 2 : ℝ) = 2 := by rw [Real.sqrt_sq (by norm_num)]
  have hh : (0.7 : ℝ) ≤ √(1 / 2) := Real.le_sqrt_of_sq_le (by norm_num)
  have hb : √(2 ^ 2) * (1100 * (1 / 2 ^ 41) * (((2 : Nat) : ℝ) + 1) ^ 2) * (circErr hadCirc : Nat) < 1 := by
    rw [hl, h0]; norm_num
  refine ⟨(C57_double (toZero 52) toZero_accurateR.accurate (fsqrt _) (by decide) (by decide) hadCirc hadCirc_ok hb).1, ?_, ?_, fun b => ?_⟩
  · unfold dblErr; rw [hl, h0]; norm_num
  · unfold dblErr; rw [hl, h0]; norm_num
  · rw [hadCirc_marg]
    unfold dblErr
    rw [hl, h0]
    refine ⟨?_, ?_, ?_, ?_⟩
    · norm_num at hh ⊢; linarith
    · norm_num at hh ⊢; linarith
    · norm_num
    · norm_num

/-- A product of two controlled-nots on 2 qubits in 53-bit arithmetic: `getMatrix` returns every entry of the exact product, a
permutation, within `10^-7`. -/
example (env : Env (FCx (toZero 52 : Rounding ℝ) dblTol)) (mt : Bool) :
    letI := measOps (toZero 52 : Rounding ℝ) dblTol (fsqrt _)
    ∃ σ, @Returns _ _ _ (measOps (toZero 52 : Rounding ℝ) dblTol (fsqrt _)) env mt σ (.getMatrix 2 2) fun o _ =>
      ∃ a, o = .mat a ∧ ∀ i < 4, ∀ j < 4, ∃ x, a.cell i j = some x ∧
        ‖(⟨x.r.1, x.i.1⟩ : ℂ) - toC (((Spec.permM 2 (Spec.cnot 0 1)).mul (Spec.permM 2 (Spec.cnot 1 0))).at 2 i j)‖ ≤ 1 / 10 ^ 7 := by
  letI := measOps (toZero 52 : Rounding ℝ) dblTol (fsqrt _)
  letI := roundW (toZero 52 : Rounding ℝ) dblTol_nn dblTol_lt
  letI := numW (toZero 52 : Rounding ℝ) toZero_accurateR.accurate
  letI := numR (toZero 52 : Rounding ℝ) toZero_accurateR (fsqrt _) (fsqrt_accurate toZero_accurateR)
  haveI := roundR (toZero 52 : Rounding ℝ) dblTol_nn dblTol_lt (fsqrt _)
  have s0 := Run.init (R := (toZero 52 : Rounding ℝ).Num) (env := env) (mt := mt) (thr := 5) (thrM := 5)
  obtain ⟨_, _, o2, σ2, _, s2⟩ := C57_call_total s0 (.cx 2 0 1) (show Spec.pre NQUBITS _ (.cx 2 0 1) from ⟨by decide, by decide, by decide, by decide⟩) trivial rfl
  obtain ⟨_, _, o3, σ3, _, s3⟩ := C57_call_total s2 (.cx 2 1 0) (show Spec.pre NQUBITS _ (.cx 2 1 0) from ⟨by decide, by decide, by decide, by decide⟩) trivial rfl
  obtain ⟨_, _, o4, σ4, _, s4⟩ := C57_call_total s3 (.mmul 0 1) (show Spec.pre NQUBITS _ (.mmul 0 1) from ⟨_, _, rfl, rfl⟩) (by
    intro A B hA hB
    cases hA; cases hB
    refine ⟨rfl, ?_⟩
    show 100 * (1 / 2 ^ 41) * (((2 : Nat) : ℝ) + 1) ^ 2 * ((32 : Nat) : ℝ) ≤ 1 / 1000
    norm_num) rfl
  have hR := s4.meas
  refine ⟨σ4, (C60_getMatrix hR (m := 2) (n := 2) rfl (le_refl 2) (by decide)).mono fun o σ' _ ho => ?_⟩
  obtain ⟨_, a, h1, _, h2⟩ := ho
  refine ⟨a, h1, fun i hi j hj => ?_⟩
  obtain ⟨x, h3, h4⟩ := h2 i hi j hj
  refine ⟨x, h3, h4.trans ?_⟩
  show 100 * (1 / 2 ^ 41) * (((2 : Nat) : ℝ) + 1) ^ 2 * (((32 : Nat) : ℝ) + 1) ≤ 1 / 10 ^ 7
  norm_num

end QDD.Props
