import Verif.Bench.Circ
import Verif.Props.Backend
/-!
# C68: the order-finding benchmark (bench/QuantumFactoring.py)
-/
set_option linter.unusedVariables false
set_option linter.unusedSimpArgs false

namespace QDD.Props
open Spec Api Finset Py Client Bench

/-- What order finding promises: the probability of reading `z` from the first register (`m` qubits) and `y` from the
rest, `| 1/2^m * sum over the x < 2^m with a^x mod N = y of exp(-2 pi i z x / 2^m) |^2`. -/
noncomputable def orderProb (N a m z y : Nat) : ℝ :=
  ‖(∑ x ∈ range (2 ^ m), if a ^ x % N = y then Complex.exp (-(2 * Real.pi * ((z * x : ℕ) : ℂ) / 2 ^ m) * Complex.I) else 0) / 2 ^ m‖ ^ 2

/-- The circuit the benchmark builds for `N` and `a` exists, has `4 n + 2` qubits (`n` the bit length of `N`), and one
execution measures `i` with probability `orderProb`: the first `2 n` qubits of `i` are the first register. -/
theorem C68_circuit {N a : Nat} (useClean : Bool) (hN : 2 ≤ N) (hc : Nat.Coprime a N) :
    ∃ b, orderCircuit N a useClean = some b ∧ b.circ.nq = 4 * N.size + 2 ∧ ∀ i < 2 ^ (4 * N.size + 2),
      b.circ.prob (keyBits (4 * N.size + 2) i) = orderProb N a (2 * N.size) (i % 2 ^ (2 * N.size)) (i / 2 ^ (2 * N.size)) := by
  obtain ⟨b, e, hn, hok, ha⟩ := order_amp useClean false hN hc
  refine ⟨b, e, by show 4 * b.n + 2 = _; rw [hn], fun i hi => ?_⟩
  rw [← hn, circ_prob hok (by rw [hn]; exact hi), hn, ha]
  rfl

theorem propStep_measured {x : Inst} {p : CircProp} (h : p.measured ≠ []) : (propStep x p).measured ≠ [] := by
  unfold propStep
  split
  · intro he; exact h (List.append_eq_nil_iff.1 he).2
  · split <;> exact h

theorem propLoop_measured : ∀ (xs : List Inst) {p : CircProp}, p.measured ≠ [] → (propLoop xs p).measured ≠ []
  | [], _, h => h
  | x :: xs, p, h => by
    have hs := propStep_measured (x := x) h
    unfold propLoop
    dsimp only
    split
    · exact hs
    · exact propLoop_measured xs hs

theorem propLoop_finds : ∀ (xs : List Inst) (p : CircProp), (∃ x ∈ xs, x.op = .measure ∧ x.qargs ≠ []) → (propLoop xs p).measured ≠ []
  | [], _, ⟨_, h, _⟩ => by cases h
  | x :: xs, p, ⟨y, hy, ho, hq⟩ => by
    rcases List.mem_cons.1 hy with rfl | hy
    · have hs : (propStep y p).measured ≠ [] := by
        unfold propStep
        rw [ho]
        intro he; exact hq (List.append_eq_nil_iff.1 he).1
      unfold propLoop
      dsimp only
      split
      · exact hs
      · exact propLoop_measured xs hs
    · unfold propLoop
      dsimp only
      split
      · rename_i h
        intro he
        simp [he] at h
      · exact propLoop_finds xs _ ⟨y, hy, ho, hq⟩

theorem circ_measured (b : B) : (classify b.circ).measured ≠ [] := by
  apply propLoop_finds
  refine ⟨⟨.measure, [0], [0], none⟩, ?_, rfl, by simp⟩
  refine List.mem_cons_of_mem _ (List.mem_append_right _ (List.mem_cons_of_mem _ ?_))
  exact List.mem_map.2 ⟨0, List.mem_range.2 (by omega), rfl⟩

theorem circ_uncond (b : B) (x : Inst) (hx : x ∈ b.circ.data) : x.cond = none := by
  rcases List.mem_cons.1 hx with rfl | hx
  · rfl
  rcases List.mem_append.1 hx with hx | hx
  · obtain ⟨g, _, rfl⟩ := List.mem_map.1 hx
    exact inst_cond g
  rcases List.mem_cons.1 hx with rfl | hx
  · rfl
  obtain ⟨q, _, rfl⟩ := List.mem_map.1 hx
  rfl

/-- **C68.** After any history, the benchmark's circuit run on the backend with `s` shots returns the outcomes `is` with
the product of the probabilities that order finding promises. -/
theorem C68_run {cfg : Cfg ℝ} {thr thrM : Nat} {cs : List (Cmd ℝ)} {h : Heap ℝ} {σ : Sys ℝ} {os : List (Obs ℝ)}
    (hR : Hist cfg thr thrM cs h σ os) (hsq : ∀ x, 0 ≤ x → cfg.sqrt x * cfg.sqrt x = x)
    {N a : Nat} (useClean : Bool) (hN : 2 ≤ N) (hc : Nat.Coprime a N) (hlim : 4 * N.size + 2 ≤ NQUBITS) :
    ∃ b, orderCircuit N a useClean = some b ∧ ∀ is : List Nat, is ≠ [] → (∀ i ∈ is, i < 2 ^ (4 * N.size + 2)) →
      Yields cfg (run b.circ ⟨some is.length, false⟩) σ (Memory (is.map (keyBits (4 * N.size + 2))))
        ((is.map fun i => orderProb N a (2 * N.size) (i % 2 ^ (2 * N.size)) (i / 2 ^ (2 * N.size))).prod) := by
  obtain ⟨b, e, hn, hok, ha⟩ := order_amp useClean false hN hc
  refine ⟨b, e, fun is h0 hi => ?_⟩
  have hsup : Supported h.ms b.circ :=
    { pos := by show 0 < 4 * b.n + 2; omega
      lim := by show 4 * b.n + 2 ≤ NQUBITS; rw [hn]; exact hlim
      fine := circ_fine hok }
  have := C54_run_partial hR hsq hsup (fun _ x hx ho => circ_uncond b x hx) (o := ⟨some is.length, false⟩)
    (.inr (circ_measured b)) (by simp) (keys := is.map (keyBits (4 * N.size + 2))) (by simpa using h0) (by simp)
  rw [List.map_map] at this
  refine cast (congrArg _ (congrArg _ (List.map_congr_left fun i hm => ?_))) this
  obtain ⟨b', e', -, hp⟩ := C68_circuit useClean hN hc
  rw [e] at e'; cases e'
  exact hp i (hi i hm)

/-- No execution ends with the ancillas not zero or with a number `≥ N` in the second register. -/
theorem C68_clean {N a m z y : Nat} (hN : 2 ≤ N) (hy : N ≤ y) : orderProb N a m z y = 0 := by
  unfold orderProb
  rw [Finset.sum_eq_zero, zero_div, norm_zero]
  · norm_num
  · intro x _
    rw [if_neg]
    have := Nat.mod_lt (a ^ x) (show 0 < N by omega)
    omega

/-! ## A concrete case: N = 15, a = 7 (order 4), 18 qubits -/

theorem pow15 (x : Nat) (h : 7 ^ x % 15 = 1) : x % 4 = 0 := by
  have h1 : 7 ^ x % 15 = 7 ^ (x % 4) % 15 := by
    conv_lhs => rw [← Nat.div_add_mod x 4, pow_add, pow_mul, Nat.mul_mod, Nat.pow_mod]
    simp
  have h2 : x % 4 < 4 := Nat.mod_lt _ (by norm_num)
  generalize x % 4 = y at *
  interval_cases y <;> simp_all

/-- Reading 64 (a quarter of 256) from the first register and 1 from the second; the outcome is 64 + 1 * 256 = 320. -/
theorem prob15 : orderProb 15 7 8 64 1 = 1 / 16 := by
  unfold orderProb
  have : (∑ x ∈ range (2 ^ 8), if 7 ^ x % 15 = 1 then Complex.exp (-(2 * Real.pi * ((64 * x : ℕ) : ℂ) / 2 ^ 8) * Complex.I) else 0) =
      ∑ x ∈ range (2 ^ 8), if 7 ^ x % 15 = 1 then (1 : ℂ) else 0 := by
    refine Finset.sum_congr rfl fun x _ => ?_
    by_cases h : 7 ^ x % 15 = 1
    · rw [if_pos h, if_pos h]
      have h4 := pow15 x h
      obtain ⟨k, rfl⟩ : ∃ k, x = 4 * k := ⟨x / 4, by omega⟩
      rw [Complex.exp_eq_one_iff]
      refine ⟨-k, ?_⟩
      push_cast
      ring
    · rw [if_neg h, if_neg h]
  rw [this, ← Finset.sum_filter, Finset.sum_const, show ((range (2 ^ 8)).filter fun x => 7 ^ x % 15 = 1).card = 64 by decide +kernel]
  norm_num

theorem C68_demo {cfg : Cfg ℝ} {thr thrM : Nat} {cs : List (Cmd ℝ)} {h : Heap ℝ} {σ : Sys ℝ} {os : List (Obs ℝ)}
    (hR : Hist cfg thr thrM cs h σ os) (hsq : ∀ x, 0 ≤ x → cfg.sqrt x * cfg.sqrt x = x) :
    ∃ b, orderCircuit 15 7 true = some b ∧ Yields cfg (run b.circ ⟨some 1, false⟩) σ (Memory [keyBits 18 320]) (1 / 16) := by
  have hsz : Nat.size 15 = 4 := by decide +kernel
  obtain ⟨b, e, hb⟩ := C68_run hR hsq (N := 15) (a := 7) true (by norm_num) (by norm_num) (by rw [hsz]; unfold NQUBITS; norm_num)
  refine ⟨b, e, ?_⟩
  rw [hsz] at hb
  have := hb [320] (by simp) (by intro i hi; rw [List.mem_singleton] at hi; rw [hi]; norm_num)
  rw [List.map_singleton, List.map_singleton, List.prod_singleton] at this
  have h1 : (320 : ℕ) % 2 ^ (2 * 4) = 64 := by norm_num
  have h2 : (320 : ℕ) / 2 ^ (2 * 4) = 1 := by norm_num
  rw [h1, h2, show 2 * 4 = 8 from rfl, prob15] at this
  exact this

end QDD.Props
