import Verif.Mpi.NetInv
/-!
# C32: the distributed product
-/

set_option linter.unusedSectionVars false
set_option linter.unusedVariables false
set_option linter.unusedSimpArgs false

namespace QDD.Props
open Spec Api ExactW Mpi Finset

variable {K : Type} [Field K] [LinearOrder K] [IsStrictOrderedRing K]

/-- The serial computation: apply the gates `F 0, …, F (t-1)` to the `n`-qubit vector `V0`. -/
def serial (n : Nat) (F : Nat → Nat → Nat → C K) (V0 : Nat → C K) : Nat → Nat → C K
  | 0 => V0
  | t + 1 => fun i => ∑ j ∈ range (2 ^ n), F t i j * serial n F V0 t j

/-- The ranks of `J` start, with empty channels, from states reached by histories of API calls on each rank; rank `r`
holds in `current` either a handle of its history that denotes the `r`-th slice of the `n`-qubit vector `V0`, or the
terminal `vEdge::zero` if that slice is zero (this is what `makeZeroStateMPI`/`makeOneStateMPI` return, dd.cpp 293-322); the gate
of call `t` is, on every rank, a handle denoting the matrix `F t`. -/
structure Launch (J : Job (C K)) (x0 : Net (C K)) (F : Nat → Nat → Nat → C K) (V0 : Nat → C K) : Prop where
  gn : J.g ≤ J.n
  largest : ∀ t < J.len, (J.call t).largest < J.n
  chan : ∀ s < ws J, ∀ d < ws J, ∀ tag, x0.q s d tag = []
  rank : ∀ r < 2 ^ J.g, ∃ (cfg : Cfg K) (thr thrM : Nat) (cs : List (Cmd K)) (h : Heap K) (σ : Sys K) (os : List (Obs K)), Hist cfg thr thrM cs h σ os ∧ J.env r = cfg.env ∧ (x0.rk r).t = 0 ∧
    (x0.rk r).ph = .enter ∧ (x0.rk r).st = σ.st ∧
    ((∃ (v : Nat) (U : Vec K), h.vs[v]? = some U ∧ σ.d.vs[v]? = some (x0.rk r).cur ∧ U.k = J.n - J.g ∧
        ∀ x < 2 ^ (J.n - J.g), U.f x = V0 (r * 2 ^ (J.n - J.g) + x)) ∨
      ((x0.rk r).cur = zeroE ∧ ∀ x < 2 ^ (J.n - J.g), V0 (r * 2 ^ (J.n - J.g) + x) = 0)) ∧
    ∀ t < J.len, ∃ (m : Nat) (M : Mat K), h.ms[m]? = some M ∧ σ.d.ms[m]? = some ((J.call t).lhs r) ∧ M.k ≤ J.n ∧
      ∀ i < 2 ^ J.n, ∀ j < 2 ^ J.n, M.at J.n i j = F t i j

namespace MpiP

variable {J : Job (C K)} {x0 : Net (C K)} {F : Nat → Nat → Nat → C K} {V0 : Nat → C K}

theorem start (h : Launch J x0 F V0) : Start J x0 := by
  refine ⟨h.gn, h.largest, fun r hr => ?_, fun r hr => ?_, fun r hr => ?_, fun r hr => ?_, fun r hr t ht => ?_, h.chan⟩ <;>
    obtain ⟨cfg, thr, thrM, cs, hp, σ, os, hH, he, h1, h2, h3, h4, h5⟩ := h.rank r hr
  · exact h1
  · exact h2
  · rw [he, h3]; exact hH.rel.inv
  · rw [he, h3]
    rcases h4 with ⟨v, U, a1, a2, a3, a4⟩ | ⟨a, _⟩
    · obtain ⟨e, e1, e2⟩ := forall₂_get hH.rel.data.vs a1
      rw [a2] at e1; cases e1
      have := e2.2.1
      rw [a3] at this
      exact this
    · rw [a]; exact .inr ⟨rfl, rfl⟩
  · rw [he, h3]
    obtain ⟨m, M, a1, a2, a3, _⟩ := h5 t ht
    obtain ⟨e, e1, e2⟩ := forall₂_get hH.rel.data.ms a1
    rw [a2] at e1; cases e1
    exact e2.1.mono a3

theorem mrel (h : Launch J x0 F V0) {r : Nat} (hr : r < 2 ^ J.g) {t : Nat} (ht : t < J.len) :
    MRel (J.env r) (x0.rk r).st ⟨J.n, F t⟩ ((J.call t).lhs r) := by
  obtain ⟨cfg, thr, thrM, cs, hp, σ, os, hH, he, h1, h2, h3, h4, h5⟩ := h.rank r hr
  obtain ⟨m, M, a1, a2, a3, a4⟩ := h5 t ht
  obtain ⟨e, e1, e2⟩ := forall₂_get hH.rel.data.ms a1
  rw [a2] at e1; cases e1
  rw [he, h3]
  exact ⟨e2.1.mono a3, fun i hi j hj => by rw [e2.at a3 hi hj]; exact a4 i hi j hj⟩

theorem slice0 (h : Launch J x0 F V0) {r : Nat} (hr : r < 2 ^ J.g) {x : Nat} (hx : x < 2 ^ (J.n - J.g)) :
    X J x0 0 r x = V0 (r * 2 ^ (J.n - J.g) + x) := by
  obtain ⟨cfg, thr, thrM, cs, hp, σ, os, hH, he, h1, h2, h3, h4, h5⟩ := h.rank r hr
  show vden _ _ _ _ = _
  rw [h3]
  rcases h4 with ⟨v, U, a1, a2, a3, a4⟩ | ⟨a, b⟩
  · obtain ⟨e, e1, e2⟩ := forall₂_get hH.rel.data.vs a1
    rw [a2] at e1; cases e1
    rw [← a4 x hx]
    have := e2.2.2 x (by rw [a3]; exact hx)
    rw [a3] at this
    exact this
  · rw [a, b x hx]
    simp [vden, zeroE]
    left; rfl

theorem B_eq (h : Launch J x0 F V0) {r c t : Nat} (hr : r < 2 ^ J.g) (hc : c < 2 ^ J.g) (ht : t < J.len)
    (ha : Aligned (F t) J.n J.g r c) {i j : Nat} (hi : i < 2 ^ (J.n - J.g)) (hj : j < 2 ^ (J.n - J.g)) :
    B J x0 t r c i j = F t (r * 2 ^ (J.n - J.g) + i) (c * 2 ^ (J.n - J.g) + j) := by
  obtain ⟨e', h1, h2⟩ := MpiG.getMPIGate_spec ((start h).inv r hr) h.gn (mrel h hr ht) hr hc ha
  have h1 : getMPIGate (x0.rk r).st.mt.mem ((J.call t).lhs r) r c (ws J) = .ok e' := h1
  rw [B, h1]
  exact h2.2 i hi j hj

/-- The slices are those of the serial computation. -/
theorem X_eq (h : Launch J x0 F V0)
    (hb : ∀ t < J.len, ∀ i < 2 ^ J.n, ∀ j < 2 ^ J.n,
      i / 2 ^ ((J.call t).largest + 1) ≠ j / 2 ^ ((J.call t).largest + 1) → F t i j = 0)
    (ha : ∀ t < J.len, ∀ r < 2 ^ J.g, ∀ c < 2 ^ J.g, Aligned (F t) J.n J.g r c) :
    ∀ t ≤ J.len, ∀ r < 2 ^ J.g, ∀ x < 2 ^ (J.n - J.g), X J x0 t r x = serial J.n F V0 t (r * 2 ^ (J.n - J.g) + x) := by
  intro t
  induction t with
  | zero => intro _ r hr x hx; exact slice0 h hr hx
  | succ t ih =>
    intro ht r hr x hx
    have hs := start h
    have ht' : t < J.len := ht
    have hlt : ∀ z w, z < 2 ^ J.g → w < 2 ^ (J.n - J.g) → z * 2 ^ (J.n - J.g) + w < 2 ^ J.n := by
      intro z w hz hw
      have h1 : 2 ^ J.n = 2 ^ J.g * 2 ^ (J.n - J.g) := by rw [← Nat.pow_add]; congr 1; have := h.gn; omega
      rw [h1]
      calc z * 2 ^ (J.n - J.g) + w < z * 2 ^ (J.n - J.g) + 2 ^ (J.n - J.g) := by omega
        _ = (z + 1) * 2 ^ (J.n - J.g) := by rw [Nat.succ_mul]
        _ ≤ _ := Nat.mul_le_mul_right _ hz
    show acc J x0 (X J x0 t) t r ((J.call t).last J) x = ∑ j ∈ range (2 ^ J.n), F t _ j * serial J.n F V0 t j
    obtain ⟨hnd, hws, _⟩ := mem_cols hs (c := 0) ht' hr (Nat.two_pow_pos _)
    unfold acc
    rw [← List.sum_toFinset _ hnd]
    have h1 : 2 ^ J.n = 2 ^ J.g * 2 ^ (J.n - J.g) := by rw [← Nat.pow_add]; congr 1; have := h.gn; omega
    rw [show range (2 ^ J.n) = range (2 ^ J.g * 2 ^ (J.n - J.g)) by rw [h1], sum_blocks]
    have hsub : ((J.call t).cols J r ((J.call t).last J)).toFinset ⊆ range (2 ^ J.g) := by
      intro c hc
      rw [List.mem_toFinset] at hc
      exact mem_range.2 (hws c hc)
    refine (sum_congr rfl fun c hc => ?_).trans (sum_subset hsub fun c hc hnc => ?_)
    · have hc := mem_range.1 (hsub hc)
      unfold term
      rw [bsum_eq]
      refine sum_congr rfl fun j hj => ?_
      have hj := mem_range.1 hj
      rw [B_eq h hr hc ht' (ha t ht' r hr c hc) hx hj, ih (by omega) c hc j hj]
    · have hc := mem_range.1 hc
      refine sum_eq_zero fun j hj => ?_
      have hj := mem_range.1 hj
      rw [hb t ht' _ (hlt r x hr hx) _ (hlt c j hc hj), zero_mul]
      exact (mem_cols hs ht' hr hc).2.2 (fun hm => hnc (List.mem_toFinset.2 hm)) x j hx hj

end MpiP

/-- **C32 (protocol).** Every sequence of calls of `mv_multiply_MPI` and `mv_multiply_MPI_bcast` on `2^g` ranks, for every gate
and every distributed state, every interleaving of the ranks, every schedule of every rank's fibers and every MPI buffering:
no rank ever fails; there is no deadlock (some rank can go on even if sends complete only when received and broadcasts
synchronise); at most `2^g * len * (3 * 2^g + 4)` steps are made; and at the end every rank holds the sum, over the columns
of its (small) world, of the blocks returned by `getMPIGate` times the slices of these columns. -/
theorem C32_protocol (J : Job (C K)) (x0 : Net (C K)) (F : Nat → Nat → Nat → C K) (V0 : Nat → C K) (h : Launch J x0 F V0)
    (k : Nat) (x : Net (C K)) (hr : Run J false x0 k x) :
    (∀ r, ¬ Faulty J x r) ∧ (¬ Done J x → ∃ r y, Mpi.Step J true x r y) ∧ k ≤ 2 ^ J.g * (J.len * (3 * 2 ^ J.g + 4)) ∧
    (Done J x → ∀ r < 2 ^ J.g, ∀ i < 2 ^ (J.n - J.g),
      vden (x.rk r).st.vt.mem (J.n - J.g) (x.rk r).cur i = X J x0 J.len r i) := by
  have hs := MpiP.start h
  have hx := NInv.run hs hr
  refine ⟨fun r => hx.noFault hs r, hx.progress hs, ?_, fun hd r hr i hi => ?_⟩
  · have := run_bound hs hr
    rw [total_start hs] at this
    exact le_trans (Nat.le_add_right _ _) this
  · have := (hx.rank r hr).cur.2 i
    rw [hd r hr] at this
    exact this

/-- **C32, partial.** If every gate is a matrix that does nothing above its `largest` qubit, and its blocks are aligned
(see `C31_block_partial`), then when all ranks are done rank `r` holds exactly the `r`-th slice of the serial product.
Missing: gates with identity-stripped levels among the rank qubits, for which the claim is false (`C32_wrong`). -/
theorem C32_serial_partial (J : Job (C K)) (x0 : Net (C K)) (F : Nat → Nat → Nat → C K) (V0 : Nat → C K)
    (h : Launch J x0 F V0)
    (hb : ∀ t < J.len, ∀ i < 2 ^ J.n, ∀ j < 2 ^ J.n,
      i / 2 ^ ((J.call t).largest + 1) ≠ j / 2 ^ ((J.call t).largest + 1) → F t i j = 0)
    (ha : ∀ t < J.len, ∀ r < 2 ^ J.g, ∀ c < 2 ^ J.g, Aligned (F t) J.n J.g r c)
    (k : Nat) (x : Net (C K)) (hr : Run J false x0 k x) (hd : Done J x) :
    ∀ r < 2 ^ J.g, ∀ i < 2 ^ (J.n - J.g),
      vden (x.rk r).st.vt.mem (J.n - J.g) (x.rk r).cur i = serial J.n F V0 J.len (r * 2 ^ (J.n - J.g) + i) := by
  intro r hr' i hi
  rw [(C32_protocol J x0 F V0 h k x hr).2.2.2 hd r hr' i hi]
  exact MpiP.X_eq h hb ha J.len (le_refl _) r hr' i hi

/-- A finished run exists, so the claims about finished runs are not empty. -/
theorem C32_terminates (J : Job (C K)) (x0 : Net (C K)) (F : Nat → Nat → Nat → C K) (V0 : Nat → C K) (h : Launch J x0 F V0) :
    ∃ k x, Run J true x0 k x ∧ Done J x := by
  have hs := MpiP.start h
  have key : ∀ d k x, Run J true x0 k x → total J x ≤ d → ∃ k x, Run J true x0 k x ∧ Done J x := by
    intro d
    induction d with
    | zero =>
      intro k x hr hd
      by_cases hD : Done J x
      · exact ⟨k, x, hr, hD⟩
      · obtain ⟨r, y, hst⟩ := (NInv.run hs hr).progress hs hD
        have := (NInv.run hs hr).decr hs hst
        omega
    | succ d ih =>
      intro k x hr hd
      by_cases hD : Done J x
      · exact ⟨k, x, hr, hD⟩
      · obtain ⟨r, y, hst⟩ := (NInv.run hs hr).progress hs hD
        have := (NInv.run hs hr).decr hs hst
        exact ih _ y (.cons hr hst) (by omega)
  exact key _ _ _ .nil (le_refl _)

/-- What two ranks compute for a gate on qubit 0: rank `r` multiplies its slice by the diagonal entry `r` of the 2x2
matrix. -/
theorem MpiP.low_result {J : Job (C K)} {x0 : Net (C K)} {F : Nat → Nat → Nat → C K} {V0 : Nat → C K} (h : Launch J x0 F V0)
    (hg : J.g = 1) (hn : 2 ≤ J.n) (hlen : J.len = 1) (hl : (J.call 0).largest = 0) {A : Mat K} (hA : A.k = 1)
    (hF : ∀ i < 2 ^ J.n, ∀ j < 2 ^ J.n, F 0 i j = A.at J.n i j)
    (hns : A.F 0 1 ≠ 0 ∨ A.F 1 0 ≠ 0 ∨ A.F 0 0 ≠ A.F 1 1)
    {k : Nat} {x : Net (C K)} (hr : Run J false x0 k x) (hd : Done J x) (b : Bool) :
    ∀ i < 2 ^ (J.n - J.g), vden (x.rk (bit b)).st.vt.mem (J.n - J.g) (x.rk (bit b)).cur i =
      A.F (bit b) (bit b) * V0 (bit b * 2 ^ (J.n - J.g) + i) := by
  intro i hi
  have hblt : bit b < 2 ^ J.g := by rw [hg]; cases b <;> decide
  have ht : 0 < J.len := by omega
  obtain ⟨e', hb1, hb2⟩ := MpiG.low_block ((MpiP.start h).inv (bit b) hblt) (MpiP.mrel h hblt ht) hn hA hF hns b b
  rw [(C32_protocol J x0 F V0 h k x hr).2.2.2 hd (bit b) hblt i hi, hlen]
  show acc J x0 (X J x0 0) 0 (bit b) ((J.call 0).last J) i = _
  have hloc : (J.call 0).isLocal J = true := by
    unfold Call.isLocal; rw [hl, hg]; simp; omega
  rw [show (J.call 0).last J = (J.call 0).first by unfold Call.last; rw [if_pos hloc], acc_first (MpiP.start h) ht]
  beta_reduce
  have hw : ws J = 2 := by unfold ws; rw [hg]; rfl
  have hB : ∀ j < 2 ^ (J.n - J.g), B J x0 0 (bit b) (bit b) i j = if i = j then A.F (bit b) (bit b) else 0 := by
    intro j hj
    rw [B, hw, hb1]
    exact hb2 _ i hi j hj
  rw [bsum_eq]
  show ∑ j ∈ range (2 ^ (J.n - J.g)), _ = _
  rw [sum_eq_single i]
  · rw [hB i hi, if_pos rfl, MpiP.slice0 h hblt hi]
  · intro j hj hne
    rw [hB j (mem_range.1 hj), if_neg hne.symm, zero_mul]
  · intro hc; exact absurd (mem_range.2 hi) hc

/-- **C32 is false.** Two ranks apply X on qubit 0 to the basis state 0 of `n ≥ 2` qubits, with either function.  The serial
result has amplitude 1 at index 1, in rank 0's slice, but in every finished run both ranks hold the zero vector: the state
is lost. -/
theorem C32_wrong (J : Job (C K)) (x0 : Net (C K)) (F : Nat → Nat → Nat → C K) (V0 : Nat → C K) (h : Launch J x0 F V0)
    (hg : J.g = 1) (hn : 2 ≤ J.n) (hlen : J.len = 1) (hl : (J.call 0).largest = 0)
    (hF : ∀ i < 2 ^ J.n, ∀ j < 2 ^ J.n, F 0 i j = (xMat : Mat K).at J.n i j)
    (hV : ∀ i < 2 ^ J.n, V0 i = if i = 0 then 1 else 0)
    (k : Nat) (x : Net (C K)) (hr : Run J false x0 k x) (hd : Done J x) :
    serial J.n F V0 J.len 1 = 1 ∧
    ∀ r < 2, ∀ i < 2 ^ (J.n - J.g), vden (x.rk r).st.vt.mem (J.n - J.g) (x.rk r).cur i = 0 := by
  have h1lt : 1 < 2 ^ J.n := Nat.one_lt_two_pow (by omega)
  refine ⟨?_, fun r hr' i hi => ?_⟩
  · rw [hlen]
    show ∑ j ∈ range (2 ^ J.n), F 0 _ j * V0 j = 1
    rw [Finset.sum_eq_single 0]
    · rw [hV 0 (by omega), if_pos rfl, mul_one, hF 1 h1lt 0 (by omega)]
      simp [Mat.at, xMat]
    · intro j hj hj0
      rw [hV j (mem_range.1 hj), if_neg hj0, mul_zero]
    · intro hj; exact absurd (mem_range.2 (by omega)) hj
  · have key := MpiP.low_result h hg hn hlen hl (A := xMat) rfl hF (.inl (by simp [xMat])) hr hd (decide (r = 1)) i hi
    have hb : bit (decide (r = 1)) = r := by interval_cases r <;> rfl
    rw [hb] at key
    rw [key]
    simp [xMat]

/-! Non-vacuity: two ranks, two qubits. -/

/-- Both ranks run the same history: a one-qubit zero state, the controlled X of the demo, X on qubit 0. -/
theorem mpiDemo_runs (sqrt : ℚ → ℚ) : Runs sqrt NQUBITS
    [.zero 1, .gate 2 demoX 1 [⟨0, true⟩], .gate 2 demoX 0 []]
    ⟨[basis 1 0], [demoM0, ⟨2, Spec.gate1 2 demoX 0 []⟩]⟩ [.unit, .unit, .unit] := by
  have r0 : Runs sqrt NQUBITS ([] : List (Cmd ℚ)) ⟨[], []⟩ [] := .nil
  have r1 := r0.cons (c := .zero 1) ⟨by decide, by decide⟩ rfl
  have r2 := r1.cons (c := .gate 2 demoX 1 [⟨0, true⟩]) ⟨by decide, by decide, by simp, by simp⟩ rfl
  have r3 := r2.cons (c := .gate 2 demoX 0 []) ⟨by decide, by decide, by simp, by simp⟩ rfl
  exact r3

/-- A job with one call of the gate `m` (0 or 1) of this history. -/
theorem mpiDemo_launch (cfg : Cfg ℚ) (b : Bool) (largest : Nat) (hl : largest < 2) (m : Nat) (M : Mat ℚ)
    (hm : [demoM0, ⟨2, Spec.gate1 2 demoX 0 []⟩][m]? = some M) :
    ∃ J x0, Launch J x0 (fun _ => M.F) (fun i => if i = 0 then 1 else 0) ∧ J.g = 1 ∧ J.n = 2 ∧ J.len = 1 ∧
      (J.call 0).largest = largest ∧ (J.call 0).bcast = b := by
  obtain ⟨σ, hσ⟩ := Hist.of_runs cfg 5 5 (mpiDemo_runs cfg.sqrt)
  obtain ⟨ev, hv1, hv2⟩ := forall₂_get hσ.rel.data.vs (i := 0) (a := basis 1 0) rfl
  obtain ⟨em, hm1, hm2⟩ := forall₂_get hσ.rel.data.ms (i := m) (a := M) hm
  have hMk : M.k = 2 := by
    match m, hm with
    | 0, hm => cases hm; rfl
    | 1, hm => cases hm; rfl
    | m + 2, hm => simp at hm
  let J : Job (C ℚ) := ⟨1, 2, fun _ => cfg.env, false, 1, fun _ => ⟨b, largest, fun _ => em⟩⟩
  let x0 : Net (C ℚ) := ⟨fun r => ⟨0, .enter, σ.st, if r = 0 then ev else zeroE, zeroE, ⟨0, []⟩, ⟨0, []⟩⟩, fun _ _ _ => []⟩
  refine ⟨J, x0, ⟨Nat.le_succ 1, fun _ _ => hl, fun _ _ _ _ _ => rfl, fun r hr => ?_⟩, rfl, rfl, rfl, rfl, rfl⟩
  refine ⟨cfg, 5, 5, _, _, σ, _, hσ, rfl, rfl, rfl, rfl, ?_, fun t _ => ⟨m, M, hm, hm1, by rw [hMk], fun i hi j hj => ?_⟩⟩
  · have hr : r < 2 := hr
    interval_cases r
    · left
      exact ⟨0, basis 1 0, rfl, hv1, rfl, fun x hx => by simp [basis]⟩
    · right
      refine ⟨rfl, fun x hx => ?_⟩
      show (if 1 * 2 ^ (2 - 1) + x = 0 then _ else _) = _
      rw [if_neg (by omega)]
  · have := at_self M (i := i) (j := j) (by rw [hMk]; exact hi) (by rw [hMk]; exact hj)
    rw [hMk] at this
    exact this

/-- `C32_protocol`, `C32_terminates` and `C32_serial_partial`: their hypotheses are met by a controlled X across two ranks. -/
example (cfg : Cfg ℚ) (b : Bool) : ∃ J x0, Launch J x0 (fun _ => demoM0.F) (fun i => if i = 0 then 1 else 0) ∧ J.len = 1 ∧
    (∀ t < J.len, ∀ i < 2 ^ J.n, ∀ j < 2 ^ J.n,
      i / 2 ^ ((J.call t).largest + 1) ≠ j / 2 ^ ((J.call t).largest + 1) → demoM0.F i j = 0) ∧
    (∀ t < J.len, ∀ r < 2 ^ J.g, ∀ c < 2 ^ J.g, Aligned demoM0.F J.n J.g r c) ∧ (J.call 0).bcast = b := by
  obtain ⟨J, x0, h, hg, hn, hlen, hl, hb⟩ := mpiDemo_launch cfg b 1 (by decide) 0 demoM0 rfl
  refine ⟨J, x0, h, hlen, ?_, ?_, hb⟩
  · intro t ht i hi j hj hne
    obtain rfl : t = 0 := by omega
    rw [hn] at hi hj
    rw [hl, Nat.div_eq_of_lt hi, Nat.div_eq_of_lt hj] at hne
    exact absurd rfl hne
  · intro t ht r hr c hc d hd
    rw [hg] at hd hr hc
    obtain rfl : d = 0 := by omega
    refine .inr (.inl ?_)
    rw [hg, hn]
    rintro ⟨G, hG, h⟩
    refine demoM0_not_top ⟨G, hG, fun i hi j hj => ?_⟩
    have h := h i hi j hj
    have e : blk demoM0.F 2 (r / 2) (c / 2) i j = demoM0.F i j := by
      simp only [blk, Nat.div_eq_of_lt (show r < 2 from hr), Nat.div_eq_of_lt (show c < 2 from hc), Nat.zero_mul, Nat.zero_add]
    exact e.symm.trans h

/-- `C32_wrong`: its hypotheses are met. -/
example (cfg : Cfg ℚ) (b : Bool) : ∃ (J : Job (C ℚ)) (x0 : Net (C ℚ)) (F : Nat → Nat → Nat → C ℚ) (V0 : Nat → C ℚ),
    Launch J x0 F V0 ∧ J.g = 1 ∧ 2 ≤ J.n ∧ J.len = 1 ∧
    (J.call 0).largest = 0 ∧ (∀ i < 2 ^ J.n, ∀ j < 2 ^ J.n, F 0 i j = (xMat : Mat ℚ).at J.n i j) ∧
    (∀ i < 2 ^ J.n, V0 i = if i = 0 then 1 else 0) ∧ (J.call 0).bcast = b := by
  obtain ⟨J, x0, h, hg, hn, hlen, hl, hb⟩ := mpiDemo_launch cfg b 0 (by decide) 1 _ rfl
  refine ⟨J, x0, _, _, h, hg, by omega, hlen, hl, fun i hi j hj => ?_, fun _ _ => rfl, hb⟩
  rw [hn] at hi hj ⊢
  exact MpiG.x0_eq i hi j hj

end QDD.Props
