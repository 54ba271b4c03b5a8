import Verif.Mpi.Measure
/-!
# C33, C34, C53: distributed readout and measurement
-/

set_option linter.unusedSectionVars false
set_option linter.unusedVariables false
set_option linter.unusedSimpArgs false

namespace QDD.Props
open Spec Api Mpi Finset

variable {K : Type} [Field K] [LinearOrder K] [IsStrictOrderedRing K]

/-- The `n`-qubit vector `V` is spread over `2^g` ranks: each rank is in a state reached by a history of API calls and its
root edge is a handle of that history denoting its slice, or `vEdge::zero` if its slice is zero. -/
structure Spread (n g : Nat) (ρ : Nat → RankV K) (V : Nat → C K) : Prop where
  gn : g ≤ n
  le : n - g ≤ NQUBITS
  rank : ∀ r < 2 ^ g, ∃ (cfg : Cfg K) (thr thrM : Nat) (cs : List (Cmd K)) (h : Heap K) (σ : Sys K) (os : List (Obs K)),
    Hist cfg thr thrM cs h σ os ∧ (ρ r).st = σ.st ∧ (ρ r).memo = σ.d.memo ∧
    ((∃ (v : Nat) (U : Vec K), h.vs[v]? = some U ∧ σ.d.vs[v]? = some (ρ r).e ∧ U.k = n - g ∧
        ∀ x < 2 ^ (n - g), U.f x = V (r * 2 ^ (n - g) + x)) ∨
      ((ρ r).e = zeroE ∧ ∀ x < 2 ^ (n - g), V (r * 2 ^ (n - g) + x) = 0))

/-- The weight of the basis states whose bit `q` is `b`, over the total: the marginal probability of qubit `q`. -/
def marginal (n : Nat) (V : Nat → C K) (q : Nat) (b : Bool) : K :=
  (∑ i ∈ range (2 ^ n), if i.testBit q = b then (V i).mag2 else 0) / ∑ i ∈ range (2 ^ n), (V i).mag2

namespace MpiM

variable {n g : Nat} {ρ : Nat → RankV K} {V : Nat → C K}

theorem rankOk (h : Spread n g ρ V) {r : Nat} (hr : r < 2 ^ g) :
    ∃ env, RankOk env (n - g) (ρ r) fun x => V (r * 2 ^ (n - g) + x) := by
  obtain ⟨cfg, thr, thrM, cs, hp, σ, os, hH, h1, h2, h3⟩ := h.rank r hr
  refine ⟨cfg.env, ?_, ?_, ?_, ?_, h.le⟩
  · rw [h1]; exact hH.rel.inv
  · rw [h1, h2]; exact hH.rel.data.memo
  · rw [h1]
    rcases h3 with ⟨v, U, a1, a2, a3, a4⟩ | ⟨a, _⟩
    · obtain ⟨e, e1, e2⟩ := forall₂_get hH.rel.data.vs a1
      rw [a2] at e1; cases e1
      have := e2.2.1
      rw [a3] at this; exact this
    · rw [a]; exact .inr ⟨rfl, rfl⟩
  · intro x hx
    rw [h1]
    rcases h3 with ⟨v, U, a1, a2, a3, a4⟩ | ⟨a, b⟩
    · obtain ⟨e, e1, e2⟩ := forall₂_get hH.rel.data.vs a1
      rw [a2] at e1; cases e1
      rw [← a4 x hx]
      have := e2.2.2 x (by rw [a3]; exact hx)
      rw [a3] at this; exact this
    · rw [a, b x hx]
      simp [vden, zeroE]
      left; rfl

theorem blocks (h : g ≤ n) (φ : Nat → K) :
    ∑ i ∈ range (2 ^ n), φ i = ∑ r ∈ range (2 ^ g), ∑ x ∈ range (2 ^ (n - g)), φ (r * 2 ^ (n - g) + x) := by
  have h1 : 2 ^ n = 2 ^ g * 2 ^ (n - g) := by rw [← Nat.pow_add]; congr 1; omega
  rw [show range (2 ^ n) = range (2 ^ g * 2 ^ (n - g)) by rw [h1], sum_blocks]

theorem bit_low {r x l q : Nat} (hx : x < 2 ^ l) (hq : q < l) : (r * 2 ^ l + x).testBit q = x.testBit q := by
  rw [Nat.mul_comm, Nat.testBit_two_pow_mul_add _ hx, if_pos hq]

theorem bit_high {r x l q : Nat} (hx : x < 2 ^ l) (hq : l ≤ q) : (r * 2 ^ l + x).testBit q = r.testBit (q - l) := by
  rw [Nat.mul_comm, Nat.testBit_two_pow_mul_add _ hx, if_neg (by omega)]

/-- The qubit whose marginals are really summed. -/
def seen (n g index : Nat) : Nat := if index < n - g then index else n - g

theorem two_marg (q : Nat) : (∑ i ∈ range (2 ^ n), (if i.testBit q = false then (V i).mag2 else 0)) +
    ∑ i ∈ range (2 ^ n), (if i.testBit q = true then (V i).mag2 else 0) = ∑ i ∈ range (2 ^ n), (V i).mag2 := by
  rw [← sum_add_distrib]
  refine sum_congr rfl fun i _ => ?_
  cases i.testBit q <;> simp

theorem margAll_eq (h : Spread n g ρ V) (hV : ∃ i < 2 ^ n, V i ≠ 0) {index : Nat} (hx : index < n - g ∨ index < 32) :
    margAll g n index ρ = .ok
      (∑ i ∈ range (2 ^ n), (if i.testBit (seen n g index) = false then (V i).mag2 else 0),
       ∑ i ∈ range (2 ^ n), (if i.testBit (seen n g index) = true then (V i).mag2 else 0)) := by
  have key : ∀ (r : Nat) (b : Bool),
      ∑ x ∈ range (2 ^ (n - g)), (if (r * 2 ^ (n - g) + x).testBit (seen n g index) = b then
        (V (r * 2 ^ (n - g) + x)).mag2 else 0) =
      if index < n - g then ∑ x ∈ range (2 ^ (n - g)), (if x.testBit index = b then (V (r * 2 ^ (n - g) + x)).mag2 else 0)
      else if r.testBit 0 = b then ∑ x ∈ range (2 ^ (n - g)), (V (r * 2 ^ (n - g) + x)).mag2 else 0 := by
    intro r b
    unfold seen
    by_cases hl : index < n - g
    · simp only [hl, if_true]
      exact sum_congr rfl fun x hx => by rw [bit_low (mem_range.1 hx) hl]
    · simp only [hl, if_false]
      by_cases hb : r.testBit 0 = b
      · rw [if_pos hb]
        refine sum_congr rfl fun x hx => ?_
        rw [bit_high (mem_range.1 hx) (le_refl _), Nat.sub_self, if_pos hb]
      · rw [if_neg hb]
        refine sum_eq_zero fun x hx => ?_
        rw [bit_high (mem_range.1 hx) (le_refl _), Nat.sub_self, if_neg hb]
  have hr : ranks (2 ^ g) (fun r => margLocal (n - g) index r (ρ r)) = .ok ((List.range (2 ^ g)).map fun r =>
      (∑ x ∈ range (2 ^ (n - g)), (if (r * 2 ^ (n - g) + x).testBit (seen n g index) = false then
        (V (r * 2 ^ (n - g) + x)).mag2 else 0),
       ∑ x ∈ range (2 ^ (n - g)), (if (r * 2 ^ (n - g) + x).testBit (seen n g index) = true then
        (V (r * 2 ^ (n - g) + x)).mag2 else 0))) := by
    refine ranks_ok fun r hr => ?_
    obtain ⟨env, hok⟩ := rankOk h hr
    rw [hok.margLocal hx, key, key]
    congr 1
    by_cases hl : index < n - g
    · simp only [hl, if_true]
    · simp only [hl, if_false]
      cases r.testBit 0 <;> simp
  unfold margAll
  rw [hr]
  show (if _ then _ else _) = _
  simp only [List.map_map, Function.comp_def]
  rw [sum_map_range, sum_map_range, ← blocks h.gn (fun i => if i.testBit (seen n g index) = false then (V i).mag2 else 0),
    ← blocks h.gn (fun i => if i.testBit (seen n g index) = true then (V i).mag2 else 0)]
  rw [if_neg]
  · rfl
  · rintro ⟨a, b⟩
    have hp := sum_pos' hV
    have := two_marg (n := n) (V := V) (seen n g index)
    rw [a, b, zero_add] at this
    exact hp.ne this

theorem measureOneMPI_eq (h : Spread n g ρ V) (hV : ∃ i < 2 ^ n, V i ≠ 0) {index : Nat} (hx : index < n - g ∨ index < 32) :
    measureOneMPI g n index ρ = .ok (marginal n V (seen n g index) false) := by
  unfold measureOneMPI
  rw [margAll_eq h hV hx]
  show Except.ok _ = _
  rw [two_marg]
  rfl

end MpiM

/-- **C33 (qubits held by the ranks).** For every nonzero state spread over `2^g` ranks and every qubit `q` that is not in
the rank number, `measureOneMPI` returns on every rank the probability that qubit `q` is 0, and the outcome of
`measureOneCollapsingMPI` is '0' exactly if the number drawn by rank 0 (from `[0, norm)`) is below the weight of 0. -/
theorem C33_local (n g : Nat) (ρ : Nat → RankV K) (V : Nat → C K) (h : Spread n g ρ V) (hV : ∃ i < 2 ^ n, V i ≠ 0)
    (q : Nat) (hq : q < n - g) :
    measureOneMPI g n q ρ = .ok (marginal n V q false) ∧
    ∀ t : K, outcomeMPI g n q t ρ = .ok (!(decide (t < ∑ i ∈ range (2 ^ n), if i.testBit q = false then (V i).mag2 else 0))) := by
  have hs : MpiM.seen n g q = q := if_pos hq
  refine ⟨by rw [MpiM.measureOneMPI_eq h hV (.inl hq), hs], fun t => ?_⟩
  unfold outcomeMPI
  rw [MpiM.margAll_eq h hV (.inl hq), hs]
  rfl

/-- **C33, partial.** The same for the lowest qubit of the rank number.  Missing: the other qubits of the rank number, for
which it is false (`C33_wrong`), and the collapse (`C33_collapse_wrong`). -/
theorem C33_global_partial (n g : Nat) (ρ : Nat → RankV K) (V : Nat → C K) (h : Spread n g ρ V) (hV : ∃ i < 2 ^ n, V i ≠ 0)
    (hq : n - g < 32) :
    measureOneMPI g n (n - g) ρ = .ok (marginal n V (n - g) false) ∧
    ∀ t : K, outcomeMPI g n (n - g) t ρ =
      .ok (!(decide (t < ∑ i ∈ range (2 ^ n), if i.testBit (n - g) = false then (V i).mag2 else 0))) := by
  have hs : MpiM.seen n g (n - g) = n - g := if_neg (by omega)
  refine ⟨by rw [MpiM.measureOneMPI_eq h hV (.inr hq), hs], fun t => ?_⟩
  unfold outcomeMPI
  rw [MpiM.margAll_eq h hV (.inr hq), hs]
  rfl

/-- **C33 is false.** For every qubit `q` of the rank number the code returns the marginal of the lowest one; so on the basis
state `2^(n-g)`, in which every other rank qubit is 0 with certainty, it reports '0' with probability 0. -/
theorem C33_wrong (n g : Nat) (ρ : Nat → RankV K) (V : Nat → C K) (h : Spread n g ρ V) (hV : ∃ i < 2 ^ n, V i ≠ 0)
    (q : Nat) (hq : n - g < q) (hqn : q < n) (hq2 : q < 32) :
    measureOneMPI g n q ρ = .ok (marginal n V (n - g) false) ∧
    ((∀ i < 2 ^ n, V i = if i = 2 ^ (n - g) then 1 else 0) →
      measureOneMPI g n q ρ = .ok 0 ∧ marginal n V q false = 1) := by
  have hs : MpiM.seen n g q = n - g := if_neg (by omega)
  have h1 : measureOneMPI g n q ρ = .ok (marginal n V (n - g) false) := by
    rw [MpiM.measureOneMPI_eq h hV (.inr hq2), hs]
  refine ⟨h1, fun hb => ?_⟩
  have hlt : 2 ^ (n - g) < 2 ^ n := Nat.pow_lt_pow_right (by omega) (by omega)
  have hone : ∀ φ : Nat → Prop, ∀ _ : DecidablePred φ, φ (2 ^ (n - g)) →
      ∑ i ∈ range (2 ^ n), (if φ i then (V i).mag2 else 0) = 1 := by
    intro φ _ hφ
    rw [sum_eq_single (2 ^ (n - g))]
    · rw [if_pos hφ, hb _ hlt, if_pos rfl]; simp [Cx.mag2]
    · intro i hi hne
      rw [hb i (mem_range.1 hi), if_neg hne]; simp [Cx.mag2]
    · intro hc; exact absurd (mem_range.2 hlt) hc
  have htot : ∑ i ∈ range (2 ^ n), (V i).mag2 = 1 := by
    have := hone (fun _ => True) inferInstance trivial
    simpa using this
  constructor
  · rw [h1]
    unfold marginal
    rw [sum_eq_zero, zero_div]
    intro i hi
    by_cases he : i = 2 ^ (n - g)
    · subst he; rw [Nat.testBit_two_pow_self]; simp
    · rw [hb i (mem_range.1 hi), if_neg he]; simp [Cx.mag2]
  · unfold marginal
    rw [htot, div_one]
    refine hone (fun i => i.testBit q = false) inferInstance ?_
    show (2 ^ (n - g)).testBit q = false
    rw [Nat.testBit_two_pow]
    simp; omega

/-- The projector on 0 of one qubit: `measurementMatrix` when the result is '0' (dd.cpp 1763-1766). -/
def projMat : Mat K := ⟨1, fun i j => if i = 0 ∧ j = 0 then 1 else 0⟩

/-- **C33 (collapse) is false.** Two ranks measure qubit 0 of `n ≥ 2` qubits and get '0'.  Then the distributed product with
the projector (dd.cpp 1775-1777) leaves the whole slice of rank 0 as it was, including the amplitudes of indices with bit 0
set, and erases rank 1, whatever its amplitudes with bit 0 clear; the final factor `c` (dd.cpp 1778-1781) does not repair this. -/
theorem C33_collapse_wrong (J : Job (C K)) (x0 : Net (C K)) (F : Nat → Nat → Nat → C K) (V0 : Nat → C K)
    (h : Launch J x0 F V0) (hg : J.g = 1) (hn : 2 ≤ J.n) (hlen : J.len = 1) (hl : (J.call 0).largest = 0)
    (hF : ∀ i < 2 ^ J.n, ∀ j < 2 ^ J.n, F 0 i j = (projMat : Mat K).at J.n i j)
    (k : Nat) (x : Net (C K)) (hr : Run J false x0 k x) (hd : Done J x) (c : C K) :
    (∀ i < 2 ^ (J.n - 1), vden (x.rk 0).st.vt.mem (J.n - 1) ⟨(x.rk 0).cur.w * c, (x.rk 0).cur.n⟩ i = c * V0 i) ∧
    (∀ i < 2 ^ (J.n - 1), vden (x.rk 1).st.vt.mem (J.n - 1) ⟨(x.rk 1).cur.w * c, (x.rk 1).cur.n⟩ i = 0) := by
  have key := MpiP.low_result h hg hn hlen hl (A := projMat) rfl hF (.inr (.inr (by simp [projMat]))) hr hd
  rw [hg] at key
  constructor <;> intro i hi
  · have := key false i hi
    simp only [bit, Bool.false_eq_true, if_false, projMat, and_self, if_true, one_mul, Nat.zero_mul, Nat.zero_add] at this
    rw [← this]
    unfold vden
    ring
  · have := key true i hi
    simp only [bit, if_true, projMat, one_ne_zero, and_self, if_false, zero_mul] at this
    unfold vden at this ⊢
    show _ * c * _ = _
    rw [mul_right_comm, this, zero_mul]

/-! ## C34 -/

theorem MpiM.flat_blocks {α : Type} (φ : Nat → α) (a m : Nat) :
    ((List.range a).map fun r => (List.range m).map fun x => φ (r * m + x)).flatten = (List.range (a * m)).map φ := by
  induction a with
  | zero => simp
  | succ a ih =>
    rw [List.range_succ, List.map_append, List.flatten_append, ih, Nat.succ_mul, List.range_add, List.map_append, List.map_map]
    simp [Function.comp_def]

theorem MpiM.pow_split {n g : Nat} (h : g ≤ n) : 2 ^ g * 2 ^ (n - g) = 2 ^ n := by
  rw [← Nat.pow_add]; congr 1; omega

/-- **C34, partial (probabilities).** If no rank's slice is zero, `probabilitiesMPI` returns on every rank the Born
probabilities of all `2^n` indices in order.  Missing: states with a zero slice, for which it is false
(`C34_probabilities_wrong`). -/
theorem C34_probabilities_partial (n g : Nat) (ρ : Nat → RankV K) (V : Nat → C K) (h : Spread n g ρ V) (hl : n - g ≤ 30)
    (hV : ∀ r < 2 ^ g, ∃ x < 2 ^ (n - g), V (r * 2 ^ (n - g) + x) ≠ 0) :
    probabilitiesMPI (2 ^ g) ρ = .ok ((List.range (2 ^ n)).map (born n V)) := by
  have hr := ranks_ok (ws := 2 ^ g) (f := fun r => probsLocal (ρ r)) fun r hr => by
    obtain ⟨env, hok⟩ := MpiM.rankOk h hr
    exact hok.probs (hV r hr) hl
  unfold probabilitiesMPI
  rw [hr]
  show Except.ok _ = _
  congr 1
  simp only [List.map_map, Function.comp_def]
  rw [sum_map_range, ← MpiM.blocks h.gn (fun i => (V i).mag2), ← MpiM.pow_split h.gn, ← MpiM.flat_blocks]
  congr 1
  refine List.map_congr_left fun r hr => List.map_congr_left fun x hx => ?_
  have hp := sum_pos' (hV r (List.mem_range.1 hr))
  unfold born
  rw [MpiM.pow_split h.gn, div_mul_cancel₀ _ hp.ne']

/-- **C34, partial (amplitudes).** If no rank's slice is zero, `getVectorMPI` returns all `2^n` amplitudes in order.
Missing: states with a zero slice (`C34_getVector_wrong`). -/
theorem C34_getVector_partial (n g : Nat) (ρ : Nat → RankV K) (V : Nat → C K) (h : Spread n g ρ V) (hl : n - g ≤ 30)
    (hgn : g < n) (hV : ∀ r < 2 ^ g, ∃ x < 2 ^ (n - g), V (r * 2 ^ (n - g) + x) ≠ 0) :
    getVectorMPI (2 ^ g) ρ = .ok ((List.range (2 ^ n)).map fun i => some (V i)) := by
  have hr := ranks_ok (ws := 2 ^ g) (f := fun r => (do
      let a ← getVector (ρ r).st (ρ r).e
      return (List.range a.dim).map a.cell : Except Err _))
    (g := fun r => (List.range (2 ^ (n - g))).map fun x => some (V (r * 2 ^ (n - g) + x))) fun r hr => by
    obtain ⟨env, hok⟩ := MpiM.rankOk h hr
    obtain ⟨a, h1, h2, h3⟩ := getVector_spec hok.inv hl (hok.ptr (hV r hr)).1 (by omega)
    rw [h1]
    show Except.ok _ = _
    rw [h2]
    congr 1
    refine List.map_congr_left fun x hx => ?_
    rw [h3 x (List.mem_range.1 hx), hok.den x (List.mem_range.1 hx)]
  unfold getVectorMPI
  rw [hr]
  show Except.ok _ = _
  rw [MpiM.flat_blocks (fun i => some (V i)), MpiM.pow_split h.gn]

/-- **C34 is false (probabilities).** As soon as one rank holds `vEdge::zero` (all but one do after `makeZeroStateMPI`), and
the others hold nonzero slices of at least one qubit, fewer than `2^n` entries are returned, so everything after that rank is
at the wrong index. -/
theorem C34_probabilities_wrong (n g : Nat) (ρ : Nat → RankV K) (V : Nat → C K) (h : Spread n g ρ V) (hl : n - g ≤ 30)
    (hgn : g < n) (hV : ∀ r < 2 ^ g, (ρ r).e = zeroE ∨ ∃ x < 2 ^ (n - g), V (r * 2 ^ (n - g) + x) ≠ 0)
    (z : Nat) (hz : z < 2 ^ g) (hz0 : (ρ z).e = zeroE) :
    ∃ l, probabilitiesMPI (2 ^ g) ρ = .ok l ∧ l.length < 2 ^ n := by
  have hone : 1 < 2 ^ (n - g) := Nat.one_lt_two_pow (by omega)
  have hex : ∀ r, ∃ v : K × List K, r < 2 ^ g → probsLocal (ρ r) = .ok v ∧ v.2.length ≤ 2 ^ (n - g) ∧
      ((ρ r).e = zeroE → v.2.length = 1) := by
    intro r
    by_cases hr : r < 2 ^ g
    · obtain ⟨env, hok⟩ := MpiM.rankOk h hr
      by_cases he : (ρ r).e = zeroE
      · obtain ⟨a, ha⟩ := hok.probs_zero he
        exact ⟨_, fun _ => ⟨ha, by show 1 ≤ _; omega, fun _ => rfl⟩⟩
      · have := hok.probs ((hV r hr).resolve_left he) hl
        exact ⟨_, fun _ => ⟨this, by simp, fun hc => absurd hc he⟩⟩
    · exact ⟨(0, []), fun hc => absurd hc hr⟩
  choose v hv using hex
  have hr := ranks_ok (ws := 2 ^ g) (f := fun r => probsLocal (ρ r)) (g := v) fun r hr => (hv r hr).1
  unfold probabilitiesMPI
  rw [hr]
  refine ⟨_, rfl, ?_⟩
  rw [List.length_flatten]
  simp only [List.map_map, Function.comp_def, List.length_map]
  have hs : ∀ N, ((List.range N).map fun r => (v r).2.length).sum = ∑ r ∈ range N, (v r).2.length := by
    intro N
    induction N with
    | zero => simp
    | succ N ih => rw [List.range_succ, List.map_append, List.sum_append, ih, Finset.sum_range_succ]; simp
  rw [hs, ← MpiM.pow_split h.gn]
  calc ∑ r ∈ range (2 ^ g), (v r).2.length < ∑ r ∈ range (2 ^ g), 2 ^ (n - g) := by
        refine Finset.sum_lt_sum (fun r hr => (hv r (mem_range.1 hr)).2.1) ⟨z, mem_range.2 hz, ?_⟩
        rw [(hv z hz).2.2 hz0]; exact hone
    _ = _ := by simp

open Classical in
/-- **C34, what is returned.** If every rank whose slice is zero holds `vEdge::zero` and the state is not zero,
`probabilitiesMPI` returns the Born probabilities of the other slices in order, with a single 0 in place of each zero slice:
everything after the first zero slice is at the wrong index (for slices of two or more entries). -/
theorem C34_probabilities_actual (n g : Nat) (ρ : Nat → RankV K) (V : Nat → C K) (h : Spread n g ρ V) (hl : n - g ≤ 30)
    (_ : ∃ i < 2 ^ n, V i ≠ 0) (hV : ∀ r < 2 ^ g, (∀ x < 2 ^ (n - g), V (r * 2 ^ (n - g) + x) = 0) → (ρ r).e = zeroE) :
    probabilitiesMPI (2 ^ g) ρ = .ok ((List.range (2 ^ g)).map fun r =>
      if ∀ x < 2 ^ (n - g), V (r * 2 ^ (n - g) + x) = 0 then [0]
      else (List.range (2 ^ (n - g))).map fun x => born n V (r * 2 ^ (n - g) + x)).flatten := by
  have hex : ∀ r, ∃ v : K × List K, r < 2 ^ g → probsLocal (ρ r) = .ok v ∧
      v.1 = ∑ x ∈ range (2 ^ (n - g)), (V (r * 2 ^ (n - g) + x)).mag2 ∧
      ∀ T : K, v.2.map (fun num => num * v.1 / T) = if ∀ x < 2 ^ (n - g), V (r * 2 ^ (n - g) + x) = 0 then [0]
        else (List.range (2 ^ (n - g))).map fun x => (V (r * 2 ^ (n - g) + x)).mag2 / T := by
    intro r
    by_cases hr : r < 2 ^ g
    · obtain ⟨env, hok⟩ := MpiM.rankOk h hr
      by_cases he : ∀ x < 2 ^ (n - g), V (r * 2 ^ (n - g) + x) = 0
      · obtain ⟨a, ha⟩ := hok.probs_zero (hV r hr he)
        refine ⟨_, fun _ => ⟨ha, ?_, fun T => ?_⟩⟩
        · exact (Finset.sum_eq_zero fun x hx => by rw [he x (mem_range.1 hx)]; simp [Cx.mag2]).symm
        · rw [if_pos he]; simp
      · have hne : ∃ x < 2 ^ (n - g), V (r * 2 ^ (n - g) + x) ≠ 0 := by push Not at he; exact he
        have := hok.probs hne hl
        refine ⟨_, fun _ => ⟨this, rfl, fun T => ?_⟩⟩
        rw [if_neg he, List.map_map]
        refine List.map_congr_left fun x hx => ?_
        have hp := sum_pos' hne
        simp only [Function.comp_apply]
        rw [div_mul_cancel₀ _ hp.ne']
    · exact ⟨(0, []), fun hc => absurd hc hr⟩
  choose v hv using hex
  have hr := ranks_ok (ws := 2 ^ g) (f := fun r => probsLocal (ρ r)) (g := v) fun r hr => (hv r hr).1
  unfold probabilitiesMPI
  rw [hr]
  show Except.ok _ = _
  congr 1
  simp only [List.map_map, Function.comp_def]
  congr 1
  refine List.map_congr_left fun r hr => ?_
  rw [(hv r (List.mem_range.1 hr)).2.2]
  have hs : ((List.range (2 ^ g)).map fun r => (v r).1).sum = ∑ i ∈ range (2 ^ n), (V i).mag2 := by
    rw [sum_map_range, MpiM.blocks h.gn (fun i => (V i).mag2)]
    exact Finset.sum_congr rfl fun r hr => (hv r (mem_range.1 hr)).2.1
  rw [hs]
  rfl

/-- **C34 is false (amplitudes).** If a rank holds `vEdge::zero`, `getVectorMPI` fails (the assertion of `getVector`). -/
theorem C34_getVector_wrong (ws : Nat) (ρ : Nat → RankV K) (z : Nat) (hz : z < ws) (hz0 : (ρ z).e = zeroE) :
    ∃ er, getVectorMPI ws ρ = .error er := by
  obtain ⟨er, h⟩ := ranks_err (f := fun r => (do
      let a ← getVector (ρ r).st (ρ r).e
      return (List.range a.dim).map a.cell : Except Err (List (Option (C K))))) hz (er := .assert) (by
    rw [hz0]; rfl)
  unfold getVectorMPI
  rw [h]
  exact ⟨er, rfl⟩

/-! ## C53: sampling -/

namespace MpiM

/-- Where the loop of `measureAllMPI` stops. -/
theorem pick_spec (p : Nat → K) (hp : ∀ i, 0 ≤ p i) (t : K) : ∀ (left i : Nat) (target : Nat),
    ∑ j ∈ range i, p j < t → t ≤ ∑ j ∈ range (i + left), p j →
    ∃ r, pickLoop p t left i (∑ j ∈ range i, p j) target = r ∧ i ≤ r ∧ r < i + left ∧
      ∑ j ∈ range r, p j < t ∧ t ≤ ∑ j ∈ range (r + 1), p j := by
  intro left
  induction left with
  | zero => intro i target h1 h2; rw [Nat.add_zero] at h2; exact absurd h1 (not_lt.2 h2)
  | succ left ih =>
    intro i target h1 h2
    unfold pickLoop
    dsimp only
    rw [← sum_range_succ]
    by_cases hle : t ≤ ∑ j ∈ range (i + 1), p j
    · rw [if_pos hle]
      exact ⟨i, rfl, le_refl _, by omega, h1, hle⟩
    · rw [if_neg hle]
      obtain ⟨r, a, b, c, d, e⟩ := ih (i + 1) i (not_le.1 hle) (by rwa [show i + 1 + left = i + (left + 1) by omega])
      exact ⟨r, a, by omega, by omega, d, e⟩

theorem prefix_spec (g r : Nat) (hr : r < 2 ^ g) : prefixLoop g r = bits g r := by
  induction g generalizing r with
  | zero => rfl
  | succ g ih =>
    have hpos := Nat.two_pow_pos g
    have hb : bits (g + 1) r = r.testBit g :: bits g r := by
      unfold bits; rw [List.range_succ, List.map_append, List.reverse_append]; rfl
    unfold prefixLoop
    rw [hb]
    rw [Nat.pow_succ] at hr
    by_cases h : 1 ≤ r / 2 ^ g
    · have hle : 2 ^ g ≤ r := by
        by_contra hc
        rw [Nat.div_eq_of_lt (by omega)] at h; omega
      rw [if_pos h, ih _ (by omega)]
      have ht : ∀ b, b < g → (r - 2 ^ g).testBit b = r.testBit b := by
        intro b hb
        have := bit_low (r := 1) (x := r - 2 ^ g) (l := g) (by omega) hb
        rw [← this]; congr 1; omega
      have hg : r.testBit g = true := by
        have := bit_high (r := 1) (x := r - 2 ^ g) (l := g) (q := g) (by omega) (le_refl _)
        rw [Nat.sub_self, show 1 * 2 ^ g + (r - 2 ^ g) = r by omega] at this
        rw [this]; rfl
      rw [hg]
      congr 1
      unfold bits
      congr 1
      exact List.map_congr_left fun b hb => ht b (List.mem_range.1 hb)
    · have hlt : r < 2 ^ g := by
        by_contra hc
        exact h ((Nat.one_le_div_iff hpos).2 (by omega))
      rw [if_neg h, ih _ hlt, Nat.testBit_lt_two_pow hlt]

theorem bits_split {g l r x : Nat} (hx : x < 2 ^ l) : bits (l + g) (r * 2 ^ l + x) = bits g r ++ bits l x := by
  unfold bits
  rw [List.range_add, List.map_append, List.reverse_append, List.map_map]
  congr 2
  · refine List.map_congr_left fun b hb => ?_
    show (r * 2 ^ l + x).testBit (l + b) = _
    rw [bit_high hx (by omega)]; congr 1; omega
  · exact List.map_congr_left fun b hb => bit_low hx (List.mem_range.1 hb)

theorem ensure_w (mem : Nat → Option (VNode (C K))) (w w' : C K) (n : Option Nat) (m : Memo K) :
    ensureProbs mem ⟨w, n⟩ m = ensureProbs mem ⟨w', n⟩ m := by
  unfold ensureProbs assignProbs
  dsimp only
  cases m n with
  | some x => rfl
  | none =>
    cases n with
    | none => rfl
    | some p =>
      dsimp only
      cases mem p with
      | none => rfl
      | some nd =>
        dsimp only
        cases assignProbs mem NQUBITS nd.c0 m with
        | error e => rfl
        | ok y =>
          dsimp only
          cases assignProbs mem NQUBITS nd.c1 y.2 <;> rfl

theorem sample_w (s : St (C K)) (w w' : C K) (n : Option Nat) (m : Memo K) (draw : Nat → K) :
    sampleAll s ⟨w, n⟩ m draw = sampleAll s ⟨w', n⟩ m draw := by
  unfold sampleAll
  dsimp only
  rw [ensure_w _ w w']

/-- One rank: its weight, and a string. -/
theorem sampleLocal_spec {env : Env (C K)} {l : Nat} {ρ : RankV K} {f : Nat → C K} (h : RankOk env l ρ f) :
    ∃ lo hi : Nat → Nat → K, (∀ x u, 0 ≤ lo x u ∧ lo x u ≤ hi x u ∧ hi x u ≤ 1) ∧
      ((∃ x < 2 ^ l, f x ≠ 0) → ∀ x < 2 ^ l, ∏ u ∈ range l, (hi x u - lo x u) = born l f x) ∧
      ∀ draw : Nat → K, (∀ u < l, 0 ≤ draw u ∧ draw u < 1) →
        ∃ str, sampleLocal ρ draw = .ok (∑ x ∈ range (2 ^ l), (f x).mag2, str) ∧
          ((∃ x < 2 ^ l, f x ≠ 0) → ∃ x < 2 ^ l, str = bits l x ∧
            ∀ y < 2 ^ l, (y = x ↔ ∀ u < l, lo y u ≤ draw u ∧ draw u < hi y u)) := by
  by_cases hp : VPtrOk env ρ.st l ρ.e.n
  · obtain ⟨lo, hi, b1, b2, b3⟩ := sampleAll_spec h.inv (e := ⟨1, ρ.e.n⟩) hp one_ne_zero
    refine ⟨lo, hi, b1, fun hn x hx => ?_, fun draw hd => ?_⟩
    · rw [b2 x hx, QDD.born_eq one_ne_zero]
      have := QDD.born_eq (mem := ρ.st.vt.mem) (k := l) (e := ρ.e) (h.ptr hn).2 x
      show (vptr ρ.st.vt.mem l ρ.e.n x).mag2 / nrm ρ.st.vt.mem l ρ.e.n = _
      rw [← this]
      unfold QDD.born Props.born
      rw [bsum_eq, h.den x hx]
      congr 1
      exact sum_congr rfl fun y hy => by rw [h.den y (mem_range.1 hy)]
    · obtain ⟨m', h1, h2, h3⟩ := memo_step h.inv h.memo (e := ρ.e) hp
      obtain ⟨x, m'', c1, c2, c3, c4⟩ := b3 ρ.st m' draw h.inv (SExt.refl _ _) h2 hd
      obtain ⟨y, hy⟩ := Option.ne_none_iff_exists'.1 h3
      refine ⟨bits l x, ?_, fun _ => ⟨x, c1, rfl, c4⟩⟩
      unfold sampleLocal
      rw [h1]
      dsimp only [bind, Except.bind]
      rw [hy]
      have hs : sampleAll ρ.st ρ.e m' draw = .ok (bitList l x, m'') := by
        rw [← c2]; exact sample_w _ _ _ _ _ _
      dsimp only [bind, Except.bind]
      rw [hs]
      show Except.ok _ = _
      rw [h2.edge h.ok hy, h.norm]
      rfl
  · obtain ⟨hw, hn⟩ := h.ok.resolve_left hp
    have hz : ∀ x < 2 ^ l, f x = 0 := fun x hx => by rw [← h.den x hx]; unfold vden; rw [hw, zero_mul]
    have hno : ¬ ∃ x < 2 ^ l, f x ≠ 0 := by rintro ⟨x, hx, hne⟩; exact hne (hz x hx)
    refine ⟨fun _ _ => 0, fun _ _ => 0, by simp, fun hc => absurd hc hno, fun draw hd => ⟨[], ?_, fun hc => absurd hc hno⟩⟩
    rw [sum_eq_zero fun x hx => by rw [hz x (mem_range.1 hx)]; simp [Cx.mag2]]
    have hm : ∃ y m', ensureProbs ρ.st.vt.mem ρ.e ρ.memo = .ok m' ∧ m' none = some y := by
      unfold ensureProbs assignProbs
      rw [hn]
      cases hm : ρ.memo none with
      | some y => exact ⟨y, _, rfl, hm⟩
      | none => exact ⟨1, _, rfl, by simp [upd]⟩
    obtain ⟨y, m', h1, h2⟩ := hm
    unfold sampleLocal
    rw [h1]
    dsimp only [bind, Except.bind]
    rw [hn, h2]
    dsimp only [bind, Except.bind]
    have hs : sampleAll ρ.st ρ.e m' draw = .ok ([], m') := by
      unfold sampleAll ensureProbs
      rw [hn]
      simp only [evar, h2]
      rfl
    rw [hs]
    show Except.ok _ = _
    rw [hw]
    simp [Cx.mag2]

end MpiM

/-- **C53, partial.** `measureAllMPI` on a nonzero state spread over `2^g` ranks: every index has a box of random numbers (the
interval `(L r, R r]` of rank 0's threshold, and a box of the draws of rank `r`) of relative volume its Born probability, and for
all draws of all ranks in [0, 1) and every threshold in `(0, norm]` the string returned everywhere is that of the index whose
box is hit, of nonzero amplitude.  Missing: threshold 0 (`C53_zero_wrong`). -/
theorem C53_measureAllMPI_partial (n g : Nat) (ρ : Nat → RankV K) (V : Nat → C K) (h : Spread n g ρ V)
    (hV : ∃ i < 2 ^ n, V i ≠ 0) :
    ∃ (L R : Nat → K) (lo hi : Nat → Nat → Nat → K),
      (∀ r < 2 ^ g, ∀ x < 2 ^ (n - g), (R r - L r) / (∑ i ∈ range (2 ^ n), (V i).mag2) *
        ∏ u ∈ range (n - g), (hi r x u - lo r x u) = born n V (r * 2 ^ (n - g) + x)) ∧
      ∀ (draw : Nat → Nat → K) (t : K), (∀ r u, 0 ≤ draw r u ∧ draw r u < 1) → 0 < t →
        t ≤ ∑ i ∈ range (2 ^ n), (V i).mag2 →
        ∃ i < 2 ^ n, measureAllMPI g ρ draw (fun _ => t) = .ok (bits n i) ∧ V i ≠ 0 ∧
          ∀ r < 2 ^ g, ∀ x < 2 ^ (n - g), (i = r * 2 ^ (n - g) + x ↔
            (L r < t ∧ t ≤ R r) ∧ ∀ u < n - g, lo r x u ≤ draw r u ∧ draw r u < hi r x u) := by
  set l := n - g with hl
  have hng : l + g = n := by have := h.gn; omega
  have hex : ∀ r, ∃ lo hi : Nat → Nat → K, r < 2 ^ g → (∀ x u, 0 ≤ lo x u ∧ lo x u ≤ hi x u ∧ hi x u ≤ 1) ∧
      ((∃ x < 2 ^ l, V (r * 2 ^ l + x) ≠ 0) →
        ∀ x < 2 ^ l, ∏ u ∈ range l, (hi x u - lo x u) = born l (fun x => V (r * 2 ^ l + x)) x) ∧
      ∀ draw : Nat → K, (∀ u < l, 0 ≤ draw u ∧ draw u < 1) →
        ∃ str, sampleLocal (ρ r) draw = .ok (∑ x ∈ range (2 ^ l), (V (r * 2 ^ l + x)).mag2, str) ∧
          ((∃ x < 2 ^ l, V (r * 2 ^ l + x) ≠ 0) → ∃ x < 2 ^ l, str = bits l x ∧
            ∀ y < 2 ^ l, (y = x ↔ ∀ u < l, lo y u ≤ draw u ∧ draw u < hi y u)) := by
    intro r
    by_cases hr : r < 2 ^ g
    · obtain ⟨env, hok⟩ := MpiM.rankOk h hr
      obtain ⟨lo, hi, a⟩ := MpiM.sampleLocal_spec hok
      exact ⟨lo, hi, fun _ => a⟩
    · exact ⟨fun _ _ => 0, fun _ _ => 0, fun hc => absurd hc hr⟩
  choose lo hi hb using hex
  set P : Nat → K := fun r => ∑ x ∈ range (2 ^ l), (V (r * 2 ^ l + x)).mag2 with hP
  have hP0 : ∀ r, 0 ≤ P r := fun r => sum_nonneg fun _ _ => Cx.mag2_nonneg _
  have htot : ∑ i ∈ range (2 ^ n), (V i).mag2 = ∑ r ∈ range (2 ^ g), P r := MpiM.blocks h.gn _
  have hS := sum_pos' hV
  refine ⟨fun r => ∑ j ∈ range r, P j, fun r => ∑ j ∈ range (r + 1), P j, lo, hi, fun r hr x hx => ?_, fun draw t hd ht0 ht1 => ?_⟩
  · beta_reduce
    rw [sum_range_succ, add_sub_cancel_left]
    by_cases hn : ∃ x < 2 ^ l, V (r * 2 ^ l + x) ≠ 0
    · have hp : 0 < P r := sum_pos' (f := fun x => V (r * 2 ^ l + x)) hn
      rw [(hb r hr).2.1 hn x hx]
      unfold born
      show P r / _ * (_ / P r) = _
      rw [div_mul_div_comm, mul_comm (P r), mul_comm _ (P r), mul_comm _ (P r), mul_div_mul_left _ _ hp.ne']
    · push Not at hn
      have hp : P r = 0 := sum_eq_zero fun x hx => by rw [hn x (mem_range.1 hx)]; simp [Cx.mag2]
      rw [hp, zero_div, zero_mul]
      unfold born
      rw [hn x hx]; simp [Cx.mag2]
  · have hstr : ∀ r, ∃ str, r < 2 ^ g → sampleLocal (ρ r) (draw r) = .ok (P r, str) ∧
        ((∃ x < 2 ^ l, V (r * 2 ^ l + x) ≠ 0) → ∃ x < 2 ^ l, str = bits l x ∧
          ∀ y < 2 ^ l, (y = x ↔ ∀ u < l, lo r y u ≤ draw r u ∧ draw r u < hi r y u)) := by
      intro r
      by_cases hr : r < 2 ^ g
      · obtain ⟨str, a⟩ := (hb r hr).2.2 (draw r) fun u _ => hd r u
        exact ⟨str, fun _ => a⟩
      · exact ⟨[], fun hc => absurd hc hr⟩
    choose str hstr using hstr
    have hr := ranks_ok (ws := 2 ^ g) (f := fun r => sampleLocal (ρ r) (draw r)) (g := fun r => (P r, str r))
      fun r hr => (hstr r hr).1
    have hget : ∀ i < 2 ^ g, ((List.range (2 ^ g)).map P).getD i 0 = P i := by
      intro i hi
      simp [List.getD, List.getElem?_map, List.getElem?_range hi]
    have hgetS : ∀ i < 2 ^ g, ((List.range (2 ^ g)).map str).getD i [] = str i := by
      intro i hi
      simp [List.getD, List.getElem?_map, List.getElem?_range hi]
    -- the loop reads only ranks that exist
    have hloop : ∀ (left i : Nat) (c : K) (tg : Nat), i + left ≤ 2 ^ g →
        pickLoop (fun i => ((List.range (2 ^ g)).map P).getD i 0) t left i c tg = pickLoop P t left i c tg := by
      intro left
      induction left with
      | zero => intros; rfl
      | succ left ih =>
        intro i c tg hle
        unfold pickLoop
        dsimp only
        rw [hget i (by omega), ih (i + 1) _ i (by omega)]
    obtain ⟨r, p1, p2, p3, p4, p5⟩ := MpiM.pick_spec P hP0 t (2 ^ g) 0 0 (by simpa using ht0)
      (by rw [Nat.zero_add, ← htot]; exact ht1)
    rw [Finset.sum_range_zero] at p1
    rw [Nat.zero_add] at p3
    have hpr : P r ≠ 0 := by
      intro hc
      rw [sum_range_succ, hc, add_zero] at p5
      exact absurd p4 (not_lt.2 p5)
    have hn : ∃ x < 2 ^ l, V (r * 2 ^ l + x) ≠ 0 := by
      by_contra hc
      push Not at hc
      exact hpr (sum_eq_zero fun x hx => by rw [hc x (mem_range.1 hx)]; simp [Cx.mag2])
    obtain ⟨x, hx, hsx, hbox⟩ := (hstr r p3).2 hn
    have hlt : ∀ z w, z < 2 ^ g → w < 2 ^ l → z * 2 ^ l + w < 2 ^ n := by
      intro z w hz hw
      rw [← MpiM.pow_split h.gn]
      calc z * 2 ^ l + w < z * 2 ^ l + 2 ^ l := by omega
        _ = (z + 1) * 2 ^ l := by rw [Nat.succ_mul]
        _ ≤ _ := Nat.mul_le_mul_right _ hz
    refine ⟨r * 2 ^ l + x, hlt r x p3 hx, ?_, ?_, ?_⟩
    · unfold measureAllMPI
      rw [hr]
      show Except.ok _ = _
      simp only [List.map_map, Function.comp_def]
      rw [hloop _ _ _ _ (by omega), p1, hgetS r p3, hsx, MpiM.prefix_spec g r p3, ← hng, MpiM.bits_split hx]
    · intro hc
      have hbx := (hb r p3).2.1 hn x hx
      have : born l (fun x => V (r * 2 ^ l + x)) x = 0 := by
        unfold born; beta_reduce; rw [hc]; simp [Cx.mag2]
      rw [this, prod_eq_zero_iff] at hbx
      obtain ⟨u, hu, hz⟩ := hbx
      have := (hbox x hx).1 rfl u (mem_range.1 hu)
      have hle := this.1
      have hlt := this.2
      rw [sub_eq_zero.1 hz] at hlt
      exact absurd hlt (not_lt.2 hle)
    · intro r' hr' y hy
      have hsep : r * 2 ^ l + x = r' * 2 ^ l + y ↔ r = r' ∧ x = y := by
        constructor
        · intro he
          have hd := congrArg (· / 2 ^ l) he
          have hm := congrArg (· % 2 ^ l) he
          simp only [Nat.mul_comm _ (2 ^ l), Nat.mul_add_div (Nat.two_pow_pos l), Nat.div_eq_of_lt hx, Nat.div_eq_of_lt hy,
            Nat.add_zero, Nat.mul_add_mod, Nat.mod_eq_of_lt hx, Nat.mod_eq_of_lt hy] at hd hm
          exact ⟨hd, hm⟩
        · rintro ⟨rfl, rfl⟩; rfl
      rw [hsep]
      have hmono : ∀ a b, a ≤ b → ∑ j ∈ range a, P j ≤ ∑ j ∈ range b, P j := fun a b hab =>
        sum_le_sum_of_subset_of_nonneg (range_subset_range.2 hab) fun _ _ _ => hP0 _
      constructor
      · rintro ⟨rfl, rfl⟩
        exact ⟨⟨p4, p5⟩, (hbox x hx).1 rfl⟩
      · rintro ⟨⟨q1, q2⟩, q3⟩
        have hrr : r = r' := by
          rcases Nat.lt_trichotomy r r' with hc | hc | hc
          · exact absurd (lt_of_lt_of_le q1 p5) (not_lt.2 (hmono _ _ hc))
          · exact hc
          · exact absurd (lt_of_lt_of_le p4 q2) (not_lt.2 (hmono _ _ hc))
        subst hrr
        exact ⟨rfl, ((hbox y hy).2 q3).symm⟩

/-- **C53 is false for threshold 0**, which `uniform_real_distribution(0, sum)` can return: if rank 0 holds `vEdge::zero` (as
after `makeOneStateMPI`), rank 0 is chosen although its weight is 0 and the string has `g` instead of `n` characters. -/
theorem C53_zero_wrong (n g : Nat) (ρ : Nat → RankV K) (V : Nat → C K) (h : Spread n g ρ V) (hgn : g < n)
    (hz : (ρ 0).e = zeroE) (draw : Nat → Nat → K) (hd : ∀ r u, 0 ≤ draw r u ∧ draw r u < 1) :
    ∃ str, measureAllMPI g ρ draw (fun _ => 0) = .ok str ∧ str.length = g ∧ str.length < n := by
  have hex : ∀ r, ∃ v : K × List Bool, r < 2 ^ g → sampleLocal (ρ r) (draw r) = .ok v ∧ 0 ≤ v.1 := by
    intro r
    by_cases hr : r < 2 ^ g
    · obtain ⟨env, hok⟩ := MpiM.rankOk h hr
      obtain ⟨lo, hi, _, _, a⟩ := MpiM.sampleLocal_spec hok
      obtain ⟨str, b, _⟩ := a (draw r) fun u _ => hd r u
      exact ⟨_, fun _ => ⟨b, by show 0 ≤ ∑ x ∈ range (2 ^ (n - g)), _; exact sum_nonneg fun _ _ => Cx.mag2_nonneg _⟩⟩
    · exact ⟨(0, []), fun hc => absurd hc hr⟩
  choose v hv using hex
  have h0 : 0 < 2 ^ g := Nat.two_pow_pos g
  have hr := ranks_ok (ws := 2 ^ g) (f := fun r => sampleLocal (ρ r) (draw r)) (g := v) fun r hr => (hv r hr).1
  have hv0 : (v 0).2 = [] := by
    have h1 := (hv 0 h0).1
    unfold sampleLocal at h1
    have hn : (ρ 0).e.n = none := by rw [hz]; rfl
    cases hm : ensureProbs (ρ 0).st.vt.mem (ρ 0).e (ρ 0).memo with
    | error e => rw [hm] at h1; cases h1
    | ok m' =>
      rw [hm] at h1
      dsimp only [bind, Except.bind] at h1
      rw [hn] at h1
      cases hm2 : m' none with
      | none => rw [hm2] at h1; cases h1
      | some y =>
        rw [hm2] at h1
        dsimp only [bind, Except.bind] at h1
        have hs : sampleAll (ρ 0).st (ρ 0).e m' (draw 0) = .ok ([], m') := by
          unfold sampleAll ensureProbs
          rw [hn]
          simp only [evar, hm2]
          rfl
        rw [hs] at h1
        cases hv0 : v 0
        rw [hv0] at h1
        cases h1
        rfl
  have hget : ∀ {α : Type} (f : K × List Bool → α) (d : α), (((List.range (2 ^ g)).map v).map f).getD 0 d = f (v 0) := by
    intro α f d
    simp [List.getD, List.getElem?_map, List.getElem?_range h0]
  refine ⟨prefixLoop g 0, ?_, ?_, ?_⟩
  · unfold measureAllMPI
    rw [hr]
    show Except.ok _ = _
    obtain ⟨k, hk⟩ : ∃ k, 2 ^ g = k + 1 := ⟨2 ^ g - 1, by omega⟩
    have hp : pickLoop (fun i => (((List.range (2 ^ g)).map v).map (·.1)).getD i 0) 0 (2 ^ g) 0 0 0 = 0 := by
      rw [show pickLoop (fun i => (((List.range (2 ^ g)).map v).map (·.1)).getD i 0) 0 (2 ^ g) 0 0 0 =
        pickLoop (fun i => (((List.range (2 ^ g)).map v).map (·.1)).getD i 0) 0 (k + 1) 0 0 0 by rw [← hk]]
      unfold pickLoop
      dsimp only
      rw [hget, zero_add, if_pos (hv 0 h0).2]
    rw [hp, hget, hv0, List.append_nil]
  · rw [MpiM.prefix_spec g 0 h0]; simp [bits]
  · rw [MpiM.prefix_spec g 0 h0]; simp [bits, hgn]

/-! ## Non-vacuity -/

/-- A history with the zero state of one qubit gives spread states: rank `r0` holds it, the other ranks `vEdge::zero`. -/
theorem mpiSpread (cfg : Cfg ℚ) (g r0 : Nat) (hr0 : r0 < 2 ^ g) : ∃ ρ, Spread (g + 1) g ρ (fun i => if i = r0 * 2 then (1 : C ℚ) else 0) ∧
    ∀ r, r ≠ r0 → (ρ r).e = zeroE := by
  obtain ⟨σ, hσ⟩ := Hist.of_runs cfg 5 5 (mpiDemo_runs cfg.sqrt)
  obtain ⟨ev, hv1, hv2⟩ := forall₂_get hσ.rel.data.vs (i := 0) (a := basis 1 0) rfl
  refine ⟨fun r => ⟨σ.st, σ.d.memo, if r = r0 then ev else zeroE⟩, ⟨by omega, by rw [Nat.add_sub_cancel_left]; decide, fun r hr => ?_⟩,
    fun r hr => if_neg hr⟩
  rw [Nat.add_sub_cancel_left]
  refine ⟨cfg, 5, 5, _, _, σ, _, hσ, rfl, rfl, ?_⟩
  by_cases h : r = r0
  · subst h
    left
    refine ⟨0, basis 1 0, rfl, by rw [hv1]; simp, rfl, fun x hx => ?_⟩
    simp [basis]
  · right
    refine ⟨if_neg h, fun x hx => ?_⟩
    have hx : x < 2 := by simpa using hx
    beta_reduce
    rw [if_neg]
    omega

/-- `C33_local`, `C33_global_partial`: rank 1 of 2. -/
example (cfg : Cfg ℚ) : ∃ ρ V, Spread 2 1 ρ V ∧ (∃ i < 2 ^ 2, (V i : C ℚ) ≠ 0) := by
  obtain ⟨ρ, h, _⟩ := mpiSpread cfg 1 1 (by decide)
  exact ⟨ρ, _, h, 2, by decide, by simp⟩

/-- `C33_wrong`: three qubits, four ranks, basis state 2, qubit 2. -/
example (cfg : Cfg ℚ) : ∃ ρ V, Spread 3 2 ρ V ∧ (∃ i < 2 ^ 3, (V i : C ℚ) ≠ 0) ∧ 3 - 2 < 2 ∧ 2 < 3 ∧
    ∀ i < 2 ^ 3, V i = if i = 2 ^ (3 - 2) then 1 else 0 := by
  obtain ⟨ρ, h, _⟩ := mpiSpread cfg 2 1 (by decide)
  exact ⟨ρ, _, h, ⟨2, by decide, by simp⟩, by decide, by decide, fun i _ => rfl⟩

/-- `C34_probabilities_wrong`, `C34_getVector_wrong`, `C53_zero_wrong`: rank 1 of 2 holds the state, rank 0 is zero. -/
example (cfg : Cfg ℚ) : ∃ ρ V, Spread 2 1 ρ V ∧ (ρ 0).e = zeroE ∧
    ∀ r < 2 ^ 1, (ρ r).e = zeroE ∨ ∃ x < 2 ^ (2 - 1), (V (r * 2 ^ (2 - 1) + x) : C ℚ) ≠ 0 := by
  obtain ⟨ρ, h, hz⟩ := mpiSpread cfg 1 1 (by decide)
  refine ⟨ρ, _, h, hz 0 (by decide), fun r hr => ?_⟩
  by_cases h1 : r = 1
  · subst h1
    exact .inr ⟨0, by decide, by simp⟩
  · exact .inl (hz r h1)

/-- `C34_probabilities_actual`: the state |10⟩ of two qubits on two ranks gives `[0, 1, 0]`. -/
example (cfg : Cfg ℚ) : ∃ ρ V, Spread 2 1 ρ V ∧ (V 2 : C ℚ) = 1 ∧ probabilitiesMPI (2 ^ 1) ρ = .ok [0, 1, 0] := by
  obtain ⟨ρ, h, hz⟩ := mpiSpread cfg 1 1 (by decide)
  refine ⟨ρ, _, h, by simp, ?_⟩
  have := C34_probabilities_actual 2 1 ρ _ h (by decide) ⟨2, by decide, by simp⟩ (fun r hr h0 => by
    have h1 : r ≠ 1 := by
      rintro rfl
      exact absurd (h0 0 (by decide)) (by simp)
    exact hz r h1)
  rw [this]
  congr 1
  rw [show List.range (2 ^ 1) = [0, 1] from rfl]
  simp only [List.map_cons, List.map_nil]
  rw [if_pos (by intro x hx; rw [if_neg]; have : x < 2 := hx; omega), if_neg (by
    intro h0
    exact absurd (h0 0 (by decide)) (by simp))]
  have h4 : ∑ j ∈ range (2 ^ 2), ((if j = 1 * 2 then (1 : C ℚ) else 0)).mag2 = 1 := by
    simp [show (2 : ℕ) ^ 2 = 4 from rfl, Finset.sum_range_succ, Cx.mag2]
  have hb : ∀ i, born 2 (fun i => if i = 1 * 2 then (1 : C ℚ) else 0) i = (if i = 1 * 2 then (1 : C ℚ) else 0).mag2 := fun i => by
    rw [born, h4, div_one]
  simp only [hb]
  simp [Cx.mag2]

/-- `C34_probabilities_partial`, `C34_getVector_partial`, `C53_measureAllMPI_partial`: both ranks hold a state. -/
example (cfg : Cfg ℚ) : ∃ ρ V, Spread 2 1 ρ V ∧ ∀ r < 2 ^ 1, ∃ x < 2 ^ (2 - 1), (V (r * 2 ^ (2 - 1) + x) : C ℚ) ≠ 0 := by
  obtain ⟨σ, hσ⟩ := Hist.of_runs cfg 5 5 (mpiDemo_runs cfg.sqrt)
  obtain ⟨ev, hv1, hv2⟩ := forall₂_get hσ.rel.data.vs (i := 0) (a := basis 1 0) rfl
  refine ⟨fun r => ⟨σ.st, σ.d.memo, ev⟩, fun i => if i % 2 = 0 then 1 else 0, ⟨by decide, by decide, fun r hr => ?_⟩,
    fun r hr => ⟨0, by decide, by simp⟩⟩
  refine ⟨cfg, 5, 5, _, _, σ, _, hσ, rfl, rfl, .inl ⟨0, basis 1 0, rfl, hv1, rfl, fun x hx => ?_⟩⟩
  have hx : x < 2 := by simpa using hx
  show (basis 1 0 : Vec ℚ).f x = if (r * 2 ^ (2 - 1) + x) % 2 = 0 then 1 else 0
  interval_cases x
  · simp [basis]
  · rw [if_neg (by omega)]; simp [basis]

/-- `C33_collapse_wrong`: its hypotheses are met (the amplitudes that should vanish and survive are both there). -/
example (cfg : Cfg ℚ) : ∃ (J : Job (C ℚ)) (x0 : Net (C ℚ)) (F : Nat → Nat → Nat → C ℚ) (V0 : Nat → C ℚ),
    Launch J x0 F V0 ∧ J.g = 1 ∧ 2 ≤ J.n ∧ J.len = 1 ∧ (J.call 0).largest = 0 ∧ V0 1 ≠ 0 ∧
    (∀ i < 2 ^ J.n, ∀ j < 2 ^ J.n, F 0 i j = (projMat : Mat ℚ).at J.n i j) := by
  have hruns : Runs cfg.sqrt NQUBITS
      [.one 1, .gate 2 (fun r c => if r = 0 ∧ c = 0 then 1 else 0) 0 []]
      ⟨[basis 1 1], [⟨2, Spec.gate1 2 (fun r c => if r = 0 ∧ c = 0 then (1 : C ℚ) else 0) 0 []⟩]⟩ [.unit, .unit] := by
    have r0 : Runs cfg.sqrt NQUBITS ([] : List (Cmd ℚ)) ⟨[], []⟩ [] := .nil
    have r1 := r0.cons (c := .one 1) ⟨by decide, by decide⟩ rfl
    have r2 := r1.cons (c := .gate 2 (fun r c => if r = 0 ∧ c = 0 then 1 else 0) 0 []) ⟨by decide, by decide, by simp, by simp⟩ rfl
    exact r2
  obtain ⟨σ, hσ⟩ := Hist.of_runs cfg 5 5 hruns
  obtain ⟨ev, hv1, hv2⟩ := forall₂_get hσ.rel.data.vs (i := 0) (a := basis 1 1) rfl
  obtain ⟨em, hm1, hm2⟩ := forall₂_get hσ.rel.data.ms (i := 0)
    (a := ⟨2, Spec.gate1 2 (fun r c => if r = 0 ∧ c = 0 then (1 : C ℚ) else 0) 0 []⟩) rfl
  have hG : ∀ i < 2 ^ 2, ∀ j < 2 ^ 2, Spec.gate1 2 (fun r c => if r = 0 ∧ c = 0 then (1 : C ℚ) else 0) 0 [] i j =
      (projMat : Mat ℚ).at 2 i j := by
    intro i hi j hj
    have hs : Spec.sat ([] : List Ctrl) 2 i = true := by simp [Spec.sat]
    have hb : (∀ b < 2, b ≠ 0 → i.testBit b = j.testBit b) ↔ i.testBit 1 = j.testBit 1 := by
      constructor
      · intro h; exact h 1 (by decide) (by decide)
      · intro h b hb hb0
        obtain rfl : b = 1 := by omega
        exact h
    unfold Spec.gate1 Mat.at
    simp only [hb, hs, if_true, projMat, Nat.pow_one]
    interval_cases i <;> interval_cases j <;> simp [bit, Nat.testBit]
  let J : Job (C ℚ) := ⟨1, 2, fun _ => cfg.env, false, 1, fun _ => ⟨false, 0, fun _ => em⟩⟩
  let x0 : Net (C ℚ) := ⟨fun r => ⟨0, .enter, σ.st, ev, zeroE, ⟨0, []⟩, ⟨0, []⟩⟩, fun _ _ _ => []⟩
  refine ⟨J, x0, fun _ => (projMat : Mat ℚ).at 2, fun i => if i % 2 = 1 then 1 else 0,
    ⟨Nat.le_succ 1, fun _ _ => Nat.zero_lt_two, fun _ _ _ _ _ => rfl, fun r hr => ?_⟩, rfl, le_refl _, rfl, rfl, by simp, fun i hi j hj => rfl⟩
  refine ⟨cfg, 5, 5, _, _, σ, _, hσ, rfl, rfl, rfl, rfl, .inl ⟨0, basis 1 1, rfl, hv1, rfl, fun x hx => ?_⟩, fun t _ => ⟨0, _, rfl, hm1, le_refl _, fun i hi j hj => ?_⟩⟩
  · have hx : x < 2 := hx
    show (basis 1 1 : Vec ℚ).f x = if (r * 2 ^ (2 - 1) + x) % 2 = 1 then 1 else 0
    interval_cases x
    · rw [if_neg (by omega)]; simp [basis]
    · rw [if_pos (by omega)]; simp [basis]
  · have h1 := at_self (⟨2, Spec.gate1 2 (fun r c => if r = 0 ∧ c = 0 then (1 : C ℚ) else 0) 0 []⟩ : Mat ℚ) (i := i) (j := j) hi hj
    rw [← hG i hi j hj]
    exact h1

end QDD.Props
