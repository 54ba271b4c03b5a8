import Verif.Core.Large
import Verif.Props.Demo
/-!
# C07: `makeLargeGate`

The property fails: for every gate on at least one qubit the function reads past the end of a vector
(`C07_reads_past_end`).  If those reads are harmless, whatever they give, the gate is right (`C07_matrix_partial`).
-/

set_option linter.unusedSectionVars false
set_option linter.unusedVariables false
set_option linter.unusedSimpArgs false

namespace QDD.Props
open Spec Api Prog Finset

variable {K : Type} [Field K] [LinearOrder K] [IsStrictOrderedRing K]

/-- The index formed by the bits of `i` at the targets, the first target being the lowest bit. -/
def targetIndex (ts : List Nat) (i : Nat) : Nat := ∑ m ∈ range ts.length, if i.testBit (ts.getD m 0) then 2 ^ m else 0

/-- The matrix `G` on the listed qubits of `n`, identity elsewhere. -/
def largeMat (n : Nat) (G : Nat → Nat → C K) (ts : List Nat) : Mat K :=
  ⟨n, fun i j => if ∀ b < n, b ∉ ts → i.testBit b = j.testBit b then G (targetIndex ts i) (targetIndex ts j) else 0⟩

theorem targetIndex_eq (ts : List Nat) (i : Nat) : gath ts i = targetIndex ts i := by
  rw [← gath_sum, targetIndex]
  generalize ts.length = n
  induction n with
  | zero => simp
  | succ n ih =>
    rw [List.range_succ, List.map_append, List.sum_append, ih, Finset.sum_range_succ]
    congr 1
    by_cases h : i.testBit (ts.getD n 0) <;> simp [nb, h]

/-- The rows of a `2^k × 2^k` matrix, as the caller passes them. -/
def rowsOf (k : Nat) (G : Nat → Nat → C K) : List (List (C K)) :=
  (List.range (2 ^ k)).map fun r => (List.range (2 ^ k)).map fun c => G r c

/-- **C07 fails.**  For every matrix of size at least 2, all targets and every state of the engine, the call reads past
the end of `target_compresed`: with reads past the end trapping, the first thing any schedule does is fault. -/
theorem C07_reads_past_end (env : Env (C K)) (q k : Nat) (hk : 0 < k) (G : Nat → Nat → C K) (ts : List Nat)
    (hts : ts.length = k) (s : St (C K)) :
    Faults (makeLargeGate env (fun _ => .error .oob) q (rowsOf k G) ts) s := by
  rw [makeLargeGate_strict (env := env) hk (G := G) (g := rowsOf k G) rfl hts]
  exact .step 0 rfl

/-- **C07, partial.**  Suppose reads past the end of the vector give some number (`past`) instead of trapping.  After any
history, `makeLargeGate` of a `2^k × 2^k` matrix on `k` distinct targets below `q ≤ 100` returns, under every schedule, a
handle that behaves in every later call as the matrix acting on the listed qubits.  Missing: the code has no defined
behaviour here, and the index vector it builds has `2^(2^k)` entries, so it needs memory for that. -/
theorem C07_matrix_partial (cfg : Cfg K) (thr thrM : Nat) (cs : List (Cmd K)) (h : Heap K) (σ : Sys K) (os : List (Obs K))
    (hR : Hist cfg thr thrM cs h σ os) (past : Nat → Nat) (q k : Nat) (G : Nat → Nat → C K) (ts : List Nat)
    (hk : ts.length = k) (hnd : ts.Nodup) (hts : ∀ t ∈ ts, t < q) (hq : q ≤ NQUBITS) :
    Total (makeLargeGate cfg.env (fun i => .ok (past i)) q (rowsOf k G) ts) σ.st (fun s' e =>
      ∀ c h' o, pre NQUBITS (h.addM (largeMat q G ts)) c → Spec.step cfg.sqrt (h.addM (largeMat q G ts)) c = some (h', o) →
        Returns cfg ⟨σ.d.addM e, s'⟩ c o) := by
  have hr := hR.rel
  have hsat := makeLargeGate_sat (env := cfg.env) past (G := G) (g := rowsOf k G) rfl hk hnd hts hq hr.inv
  have hsat' := Sat.mono hsat (Q' := fun s' e => RelD cfg.env s' (σ.d.addM e) (h.addM (largeMat q G ts)))
    fun s' e hi' he' hm => by
      refine (hr.data.ext hr.inv he').addM ⟨hm.1, fun i hi j hj => ?_⟩
      rw [show mden s'.mt.mem (largeMat q G ts).k e i j = gateL q G ts i j from hm.2 i j]
      simp only [gateL, largeMat, targetIndex_eq]
      rfl
  have ht := Total.of_sat hsat' hr.inv
  refine ⟨ht.1, fun e s' hst c h' o hp hs => ?_⟩
  obtain ⟨hi', hd⟩ := ht.2 e s' hst
  have hrel : Rel cfg.env ⟨σ.d.addM e, s'⟩ (h.addM (largeMat q G ts)) := ⟨hi', hd⟩
  exact (hrel.call hp hs).1

/-- Non-vacuous: a 3-qubit gate on qubits (2, 0) with distinct entries, after the demo history; reading it back gives
entry `(4, 1)` of the 8x8 matrix as entry `(1, 2)` of the given one. -/
example (cfg : Cfg ℚ) (past : Nat → Nat) : ∃ σ, Hist cfg 5 5 demoCmds demoHeap σ [.unit, .unit, .unit, .unit, .unit] ∧
    ([2, 0] : List Nat).Nodup ∧ (largeMat 3 demoG [2, 0]).F 4 1 = demoG 1 2 ∧ (largeMat 3 demoG [2, 0]).F 6 1 = 0 ∧
    ∃ e s', Steps (makeLargeGate cfg.env (fun i => .ok (past i)) 3 (rowsOf 2 demoG) [2, 0]) σ.st (Prog.ret e) s' ∧
      ReadsM cfg ⟨σ.d.addM e, s'⟩ 3 3 ((largeMat 3 demoG [2, 0]).at 3) := by
  obtain ⟨σ, hσ⟩ := demo_hist cfg 5 5
  have ht := C07_matrix_partial cfg 5 5 _ _ σ _ hσ past 3 2 demoG [2, 0] rfl (by decide) (by decide) (by decide)
  obtain ⟨e, s', hst⟩ := (ht.1 _ _ .refl).2
  refine ⟨σ, hσ, by decide, ?_, ?_, e, s', hst, ?_⟩
  · have h : ∀ b < 3, b ∉ ([2, 0] : List Nat) → Nat.testBit 4 b = Nat.testBit 1 b := by decide
    have h1 : targetIndex [2, 0] 4 = 1 := by decide
    have h2 : targetIndex [2, 0] 1 = 2 := by decide
    simp only [largeMat]
    rw [if_pos h, h1, h2]
  · have h : ¬ ∀ b < 3, b ∉ ([2, 0] : List Nat) → Nat.testBit 6 b = Nat.testBit 1 b := by decide
    simp only [largeMat]
    rw [if_neg h]
  · exact ht.2 e s' hst (.getMatrix 3 3) _ _ ⟨_, rfl, by decide, by decide⟩
      (by simp only [Spec.step]; rfl)

end QDD.Props
