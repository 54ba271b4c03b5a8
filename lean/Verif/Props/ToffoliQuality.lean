import Verif.Props.Toffoli
import Verif.Props.BenchQuality
/-!
# C72: success of the factoring benchmark with decompose_toffoli
-/
set_option linter.unusedVariables false
set_option linter.unusedSimpArgs false
set_option linter.unusedSectionVars false

namespace QDD.Props
open Spec Api Finset Py Client Bench

open Classical in
/-- **C72.** With `decompose_toffoli`, too, the outcomes of the benchmark's circuit from which `post_processing` finds the
factors of an odd `N < 2^15` have together probability at least `(1 - 1/N)^2 (r - 1) / (4 r)`, if the order `r` of `a` is even
and `a^(r/2)` not -1 modulo `N`. -/
theorem C72_factors {rd : ℝ → ℝ} (hrd : Rounds rd) {N a r : Nat} (useClean : Bool) (hN : 2 ≤ N) (hodd : N % 2 = 1) (hlim : N.size ≤ 15)
    (ho : IsOrder N a r) (hr2 : r % 2 = 0) (hneg : a ^ (r / 2) % N ≠ N - 1) :
    ∃ b, orderCircuit N a useClean true = some b ∧ (1 - 1 / (N : ℝ)) ^ 2 * (r - 1) / (4 * r) ≤
      ∑ i ∈ (range (2 ^ (4 * N.size + 2))).filter (Factored rd N a), (unrolled b.circ).prob (keyBits (4 * N.size + 2) i) := by
  obtain ⟨b, e, -, hp⟩ := C72_order useClean hN ho.coprime
  obtain ⟨b0, e0, hb⟩ := C69_factors hrd useClean hN hodd hlim ho hr2 hneg
  obtain ⟨b1, e1, -, hp1⟩ := C68_circuit useClean hN ho.coprime
  rw [e0] at e1; cases e1
  refine ⟨b, e, hb.trans (le_of_eq (Finset.sum_congr rfl fun i hi => ?_))⟩
  rw [mem_filter, mem_range] at hi
  rw [hp i hi.1, hp1 i hi.1]

open Classical in
/-- **C72 (shots).** After any history, this circuit run on the backend with `s > 0` shots gives, with probability at least
`1 - (1 - (1 - 1/N)^2 (r - 1) / (4 r))^s`, at least one outcome from which `post_processing` finds the factors. -/
theorem C72_factors_run {cfg : Cfg ℝ} {thr thrM : Nat} {cs : List (Cmd ℝ)} {h : Heap ℝ} {σ : Sys ℝ} {os : List (Obs ℝ)}
    (hR : Hist cfg thr thrM cs h σ os) (hsq : ∀ x, 0 ≤ x → cfg.sqrt x * cfg.sqrt x = x)
    {rd : ℝ → ℝ} (hrd : Rounds rd) {N a r : Nat} (useClean : Bool) (hN : 2 ≤ N) (hodd : N % 2 = 1) (hlim : N.size ≤ 15) (ho : IsOrder N a r)
    (hr2 : r % 2 = 0) (hneg : a ^ (r / 2) % N ≠ N - 1) {s : Nat} (hs : 0 < s) :
    ∃ b, orderCircuit N a useClean true = some b ∧ ∃ x, Yields cfg (run (unrolled b.circ) ⟨some s, false⟩) σ
        (Returned s (unrolled b.circ).nc fun keys =>
          ∃ i < 2 ^ (4 * N.size + 2), keyBits (4 * N.size + 2) i ∈ keys ∧ Factored rd N a i) x ∧
      1 - (1 - (1 - 1 / (N : ℝ)) ^ 2 * (r - 1) / (4 * r)) ^ s ≤ x := by
  obtain ⟨b, e, hn, hok, ha⟩ := order_amp useClean true hN ho.coprime
  obtain ⟨b', e', hb⟩ := C72_factors hrd useClean hN hodd hlim ho hr2 hneg
  rw [e] at e'; cases e'
  have hsup : Supported h.ms b.circ :=
    { pos := by show 0 < 4 * b.n + 2; omega
      lim := by show 4 * b.n + 2 ≤ NQUBITS; rw [hn]; unfold NQUBITS; omega
      fine := circ_fine hok }
  refine ⟨b, e, shots_find hR hsq (unrolled_supported hsup) (fun y hy hop => ?_)
    (unrolled_measured (fun x hx => (hsup.fine x hx).toWF) (.inr (circ_measured b))) hs (show 4 * b.n + 2 = _ by rw [hn]) hb⟩
  obtain ⟨x, hx, hy⟩ := List.mem_flatMap.1 hy
  rcases unroll_cases x with ⟨c1, c2, t, rfl, e⟩ | e
  · rw [e] at hy
    exact (toffoli_plain (n := b.circ.nq) y hy).2.1
  · rw [e, List.mem_singleton] at hy
    subst hy
    exact circ_uncond b _ hx

open Classical in
/-- Ten shots for N = 15, a = 7 with decomposed Toffoli gates succeed with probability more than 3/4. -/
example {cfg : Cfg ℝ} {thr thrM : Nat} {cs : List (Cmd ℝ)} {h : Heap ℝ} {σ : Sys ℝ} {os : List (Obs ℝ)}
    (hR : Hist cfg thr thrM cs h σ os) (hsq : ∀ x, 0 ≤ x → cfg.sqrt x * cfg.sqrt x = x) :
    ∃ b, orderCircuit 15 7 true true = some b ∧ ∃ x, Yields cfg (run (unrolled b.circ) ⟨some 10, false⟩) σ
      (Returned 10 (unrolled b.circ).nc fun keys =>
        ∃ i < 2 ^ (4 * Nat.size 15 + 2), keyBits (4 * Nat.size 15 + 2) i ∈ keys ∧ Factored (Rounding.toZero 52).rd 15 7 i) x ∧ 3 / 4 < x := by
  have hsz : Nat.size 15 = 4 := by decide +kernel
  obtain ⟨b, e, x, hy, hx⟩ := C72_factors_run hR hsq rounds_double (N := 15) (a := 7) (r := 4) true (by norm_num) (by norm_num) (by rw [hsz]; norm_num)
    ⟨by norm_num, by norm_num, by intro j h1 h2; interval_cases j <;> norm_num⟩ (by norm_num) (by norm_num) (s := 10) (by norm_num)
  exact ⟨b, e, x, hy, lt_of_lt_of_le (by norm_num) hx⟩

end QDD.Props
