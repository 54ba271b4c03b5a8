import Verif.Bench.Toffoli
import Verif.Props.Bench
import Verif.Props.SampExact
/-!
# C72: the benchmark's decomposition of the Toffoli gate
-/
set_option linter.unusedVariables false
set_option linter.unusedSimpArgs false
set_option linter.unusedSectionVars false

namespace QDD.Props
open Spec Api Finset Py Client Bench

/-- **C72.** On any number of qubits and any state, the gates appended for a Toffoli gate act exactly as it does, without
any phase. -/
theorem C72_toffoli {n c1 c2 t : Nat} (h1 : c1 ≠ t) (h2 : c2 ≠ t) (h3 : c1 ≠ c2) (k1 : c1 < n) (k2 : c2 < n) (k3 : t < n)
    (f : Nat → CR) : ∀ i < 2 ^ n, evol n (toffoli c1 c2 t) f i = evol n [ccxI c1 c2 t] f i :=
  toffoli_evol h1 h2 h3 k1 k2 k3 f

/-- An unconditional Toffoli gate with closed controls is replaced, anything else is kept. -/
def unroll : Inst → List Inst
  | ⟨.gate .CCX [true, true], [c1, c2, t], [], none⟩ => toffoli c1 c2 t
  | x => [x]

/-- All Toffoli gates of a circuit replaced. -/
def unrolled (c : Circ) : Circ := { c with data := c.data.flatMap unroll }

theorem unroll_cases (x : Inst) : (∃ c1 c2 t, x = ccxI c1 c2 t ∧ unroll x = toffoli c1 c2 t) ∨ unroll x = [x] := by
  unfold unroll
  split
  · exact .inl ⟨_, _, _, rfl, rfl⟩
  · exact .inr rfl

theorem expect_plain {n : Nat} {φ : (Nat → Bool) → ℝ} (post : List Inst) : ∀ (ys : List Inst),
    (∀ y ∈ ys, (∃ g ctl, y.op = .gate g ctl) ∧ y.cond = none ∧ ∃ A, y.oper n = some A) →
    ∀ f val, Py.expect n φ (ys ++ post) f val = Py.expect n φ post (evol n ys f) val := by
  intro ys
  induction ys with
  | nil => intro _ f val; rfl
  | cons y ys ih =>
    intro hy f val
    obtain ⟨⟨g, ctl, hop⟩, hc, A, hA⟩ := hy y (by simp)
    rw [List.cons_append, Py.expect, evol, if_pos (by unfold Inst.enabled; rw [hc]), hA]
    rw [hop]
    dsimp only
    exact ih (fun z hz => hy z (by simp [hz])) _ val

theorem toffoli_plain {n c1 c2 t : Nat} : ∀ y ∈ toffoli c1 c2 t, (∃ g ctl, y.op = .gate g ctl) ∧ y.cond = none ∧ ∃ A, y.oper n = some A := by
  intro y hy
  simp only [toffoli, List.mem_cons, List.mem_nil_iff, or_false] at hy
  rcases hy with rfl | rfl | rfl | rfl | rfl | rfl | rfl | rfl | rfl | rfl | rfl | rfl | rfl | rfl | rfl <;>
    exact ⟨⟨_, _, rfl⟩, rfl, _, rfl⟩

theorem ccx_wf {n nc c1 c2 t : Nat} (h : (ccxI c1 c2 t).WF n nc) : c1 ≠ t ∧ c2 ≠ t ∧ c1 ≠ c2 ∧ c1 < n ∧ c2 < n ∧ t < n := by
  have hd := h.distinct
  have hq := h.qubits
  simp only [ccxI, List.nodup_cons, List.mem_cons, List.mem_nil_iff, or_false, not_or] at hd hq
  exact ⟨hd.1.2, hd.2.1, hd.1.1, hq _ (.inl rfl), hq _ (.inr (.inl rfl)), hq _ (.inr (.inr rfl))⟩

theorem expect_unroll {n nc : Nat} {φ : (Nat → Bool) → ℝ} : ∀ (xs : List Inst), (∀ x ∈ xs, x.WF n nc) →
    ∀ f val, Py.expect n φ (xs.flatMap unroll) f val = Py.expect n φ xs f val := by
  intro xs
  induction xs with
  | nil => intro _ f val; rfl
  | cons x xs ih =>
    intro hw f val
    have hws : ∀ y ∈ xs, y.WF n nc := fun y hy => hw y (by simp [hy])
    have ih := ih hws
    rw [List.flatMap_cons]
    rcases unroll_cases x with ⟨c1, c2, t, rfl, e⟩ | e
    · obtain ⟨h1, h2, h3, k1, k2, k3⟩ := ccx_wf (hw (ccxI c1 c2 t) (by simp))
      rw [e, expect_plain _ _ toffoli_plain, ih, expect_congr φ xs hws val (C72_toffoli h1 h2 h3 k1 k2 k3 f)]
      exact (expect_plain xs [ccxI c1 c2 t] (by
        intro y hy
        rw [List.mem_singleton.1 hy]
        exact ⟨⟨_, _, rfl⟩, rfl, _, rfl⟩) f val).symm
    · rw [e]
      exact expect_append ih [x] f val

/-- **C72.** Replacing all Toffoli gates of any circuit does not change the distribution of its outcomes. -/
theorem C72_circuit {c : Circ} (hw : ∀ x ∈ c.data, x.WF c.nq c.nc) (key : List Bool) : (unrolled c).prob key = c.prob key :=
  expect_unroll c.data hw _ _

theorem toffoli_fine {n nc : Nat} {ms : List (Mat ℝ)} {c1 c2 t : Nat} (h : (ccxI c1 c2 t).WF n nc) : ∀ y ∈ toffoli c1 c2 t, Fine n nc ms y := by
  obtain ⟨h1, h2, h3, k1, k2, k3⟩ := ccx_wf h
  have hH : ∀ q < n, Fine n nc ms (hI q) := fun q hq => inst_fine (g := .h q) hq
  have hC : ∀ p q, p ≠ q → p < n → q < n → Fine n nc ms (cxI p q) := fun p q a b c => inst_fine (g := .cx p q) ⟨a, b, c⟩
  have hT : ∀ q < n, Fine n nc ms (tI q) := fun q hq =>
    ⟨⟨by simp [tI], by simpa [tI] using hq, by simp [tI], ⟨rfl, rfl⟩, by intro c hc; cases hc⟩, closed_nil, by intro c hc; cases hc⟩
  have hD : ∀ q < n, Fine n nc ms (tdgI q) := fun q hq =>
    ⟨⟨by simp [tdgI], by simpa [tdgI] using hq, by simp [tdgI], ⟨rfl, rfl⟩, by intro c hc; cases hc⟩, closed_nil, by intro c hc; cases hc⟩
  intro y hy
  simp only [toffoli, List.mem_cons, List.mem_nil_iff, or_false] at hy
  rcases hy with rfl | rfl | rfl | rfl | rfl | rfl | rfl | rfl | rfl | rfl | rfl | rfl | rfl | rfl | rfl <;>
    first | exact hH _ k3 | exact hC _ _ h2 k2 k3 | exact hC _ _ h1 k1 k3 | exact hC _ _ h3 k1 k2 | exact hT _ k3 | exact hT _ k2 | exact hT _ k1 |
      exact hD _ k3 | exact hD _ k2

theorem unrolled_supported {ms : List (Mat ℝ)} {c : Circ} (hc : Supported ms c) : Supported ms (unrolled c) where
  pos := hc.pos
  lim := hc.lim
  fine := by
    intro y hy
    obtain ⟨x, hx, hy⟩ := List.mem_flatMap.1 hy
    rcases unroll_cases x with ⟨c1, c2, t, rfl, e⟩ | e
    · rw [e] at hy
      exact toffoli_fine (hc.fine _ hx).toWF y hy
    · rw [e, List.mem_singleton] at hy
      exact hy ▸ hc.fine x hx

theorem unrolled_measured {c : Circ} (hw : ∀ x ∈ c.data, x.WF c.nq c.nc) {o : Opts} (h : Measured c o) : Measured (unrolled c) o := by
  have hq : ∀ x : Inst, x.WF c.nq c.nc → x.op = .measure → x.qargs ≠ [] := by
    intro x hx hop h'
    have := hx.arity
    rw [hop, h'] at this
    simp [Op.arity] at this
  refine h.imp_right fun hne => ?_
  have : ∃ x ∈ c.data, x.op = .measure := by
    by_contra hno
    push Not at hno
    exact hne ((measured_iff fun x hx hop => hq x (hw x hx) hop).2 hno)
  obtain ⟨x, hx, hop⟩ := this
  apply propLoop_finds
  refine ⟨x, List.mem_flatMap.2 ⟨x, hx, ?_⟩, hop, hq x (hw x hx) hop⟩
  rcases unroll_cases x with ⟨c1, c2, t, rfl, e⟩ | e
  · cases hop
  · rw [e]; simp

/-- **C72.** After any history, the backend gives every memory with the same probability for a supported circuit with
unconditional measurements and for the circuit with all its Toffoli gates replaced. -/
theorem C72_run {cfg : Cfg ℝ} {thr thrM : Nat} {cs : List (Cmd ℝ)} {h : Heap ℝ} {σ : Sys ℝ} {os : List (Obs ℝ)}
    (hR : Hist cfg thr thrM cs h σ os) (hsq : ∀ x, 0 ≤ x → cfg.sqrt x * cfg.sqrt x = x) {c : Circ} (hc : Supported h.ms c)
    (hm : ∀ x ∈ c.data, x.op = .measure → x.cond = none) {o : Opts} (hmd : Measured c o)
    (hsv : o.saveSV = true → c.nq ≤ 30) {keys : List (List Bool)} (h0 : keys ≠ []) (hs : o.shots = some keys.length) :
    Yields cfg (run c o) σ (Memory keys) ((keys.map c.prob).prod) ∧
    Yields cfg (run (unrolled c) o) σ (Memory keys) ((keys.map c.prob).prod) := by
  refine ⟨C54_run_partial hR hsq hc (fun _ => hm) hmd hsv h0 hs, ?_⟩
  have := C54_run_partial hR hsq (unrolled_supported hc) (fun _ y hy hop => by
    obtain ⟨x, hx, hy⟩ := List.mem_flatMap.1 hy
    rcases unroll_cases x with ⟨c1, c2, t, rfl, e⟩ | e
    · rw [e] at hy
      obtain ⟨⟨g, ctl, hop'⟩, hcd, _⟩ := toffoli_plain (n := c.nq) y hy
      exact hcd
    · rw [e, List.mem_singleton] at hy
      subst hy
      exact hm _ hx hop) (unrolled_measured (fun x hx => (hc.fine x hx).toWF) hmd) hsv h0 hs
  refine cast (congrArg _ ?_) this
  exact congrArg _ (List.map_congr_left fun k _ => C72_circuit (fun x hx => (hc.fine x hx).toWF) k)

/-- **C72.** With `decompose_toffoli` the benchmark builds a circuit for `N` and `a` too - the decompositions mark more qubits
as dirty, which changes the auxiliary qubits used - with `4 n + 2` qubits, and one execution of it measures `i` with
the probability order finding promises. -/
theorem C72_order {N a : Nat} (useClean : Bool) (hN : 2 ≤ N) (hc : Nat.Coprime a N) :
    ∃ b, orderCircuit N a useClean true = some b ∧ (unrolled b.circ).nq = 4 * N.size + 2 ∧ ∀ i < 2 ^ (4 * N.size + 2),
      (unrolled b.circ).prob (keyBits (4 * N.size + 2) i) = orderProb N a (2 * N.size) (i % 2 ^ (2 * N.size)) (i / 2 ^ (2 * N.size)) := by
  obtain ⟨b, e, hn, hok, ha⟩ := order_amp useClean true hN hc
  refine ⟨b, e, by show 4 * b.n + 2 = _; rw [hn], fun i hi => ?_⟩
  rw [C72_circuit (fun x hx => (circ_fine hok (ms := []) x hx).toWF), ← hn, circ_prob hok (by rw [hn]; exact hi), hn, ha]
  rfl

/-- **C72.** After any history, this circuit run on the backend with `s` shots returns the outcomes `is` with the product
of these probabilities. -/
theorem C72_order_run {cfg : Cfg ℝ} {thr thrM : Nat} {cs : List (Cmd ℝ)} {h : Heap ℝ} {σ : Sys ℝ} {os : List (Obs ℝ)}
    (hR : Hist cfg thr thrM cs h σ os) (hsq : ∀ x, 0 ≤ x → cfg.sqrt x * cfg.sqrt x = x)
    {N a : Nat} (useClean : Bool) (hN : 2 ≤ N) (hc : Nat.Coprime a N) (hlim : 4 * N.size + 2 ≤ NQUBITS) :
    ∃ b, orderCircuit N a useClean true = some b ∧ ∀ is : List Nat, is ≠ [] → (∀ i ∈ is, i < 2 ^ (4 * N.size + 2)) →
      Yields cfg (run (unrolled b.circ) ⟨some is.length, false⟩) σ (Memory (is.map (keyBits (4 * N.size + 2))))
        ((is.map fun i => orderProb N a (2 * N.size) (i % 2 ^ (2 * N.size)) (i / 2 ^ (2 * N.size))).prod) := by
  obtain ⟨b, e, hn, hok, ha⟩ := order_amp useClean true hN hc
  refine ⟨b, e, fun is h0 hi => ?_⟩
  have hsup : Supported h.ms b.circ :=
    { pos := by show 0 < 4 * b.n + 2; omega
      lim := by show 4 * b.n + 2 ≤ NQUBITS; rw [hn]; exact hlim
      fine := circ_fine hok }
  have := (C72_run hR hsq hsup (fun x hx ho => circ_uncond b x hx) (o := ⟨some is.length, false⟩)
    (.inr (circ_measured b)) (by simp) (keys := is.map (keyBits (4 * N.size + 2))) (by simpa using h0) (by simp)).2
  rw [List.map_map] at this
  refine cast (congrArg _ (congrArg _ (List.map_congr_left fun i hm => ?_))) this
  obtain ⟨b', e', -, hp⟩ := C72_order useClean hN hc
  rw [e] at e'; cases e'
  rw [← hp i (hi i hm)]
  exact (C72_circuit (fun x hx => (circ_fine hok (ms := []) x hx).toWF) _).symm

/-- For `N = 15`, `a = 7` reading 64 and 1 has probability 1/16 here too. -/
example : ∃ b, orderCircuit 15 7 true true = some b ∧ (unrolled b.circ).prob (keyBits 18 320) = 1 / 16 := by
  have hsz : Nat.size 15 = 4 := by decide +kernel
  obtain ⟨b, e, -, hb⟩ := C72_order (N := 15) (a := 7) true (by norm_num) (by norm_num)
  rw [hsz] at hb
  refine ⟨b, e, (hb 320 (by norm_num)).trans ?_⟩
  exact prob15

/-- A Toffoli gate on the first, third and second of three qubits. -/
example (f : Nat → CR) : ∀ i < 8, evol 3 [hI 1, cxI 2 1, tdgI 1, cxI 0 1, tI 1, cxI 2 1, tdgI 1, cxI 0 1, tI 2, tI 1, hI 1, cxI 0 2, tI 0, tdgI 2, cxI 0 2] f i =
    evol 3 [ccxI 0 2 1] f i :=
  C72_toffoli (n := 3) (c1 := 0) (c2 := 2) (t := 1) (by decide) (by decide) (by decide) (by decide) (by decide) (by decide) f

/-- The replaced circuit of `ccx(0, 1, 2)` and a measurement. -/
example (key : List Bool) : (⟨3, 1, 0, toffoli 0 1 2 ++ [mI 2 0]⟩ : Circ).prob key = (⟨3, 1, 0, [ccxI 0 1 2, mI 2 0]⟩ : Circ).prob key := by
  have := C72_circuit (c := ⟨3, 1, 0, [ccxI 0 1 2, mI 2 0]⟩) (by
    intro x hx
    simp only [List.mem_cons, List.mem_nil_iff, or_false] at hx
    rcases hx with rfl | rfl
    · exact (inst_fine (ms := []) (g := .ccx 0 1 2) (Q := 3) ⟨by decide, by decide, by decide, by decide, by decide, by decide⟩).toWF
    · exact (mI_fine (ms := []) (by decide) (by decide) (by simp)).toWF) key
  exact this

end QDD.Props
