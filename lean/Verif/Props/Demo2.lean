import Verif.Props.Storage
import Verif.Props.Readout
/-!
# A second concrete history: a state of norm 1 with two different nonzero amplitudes

Used to show that the hypotheses of C18–C29, C50, C51 are met by a reachable state.
-/

set_option linter.unusedSectionVars false
set_option linter.unusedVariables false
set_option linter.unusedSimpArgs false

namespace QDD.Props
open Spec Api Finset ExactW

variable {K : Type} [Field K] [LinearOrder K] [IsStrictOrderedRing K]

/-- The rotation with cosine 3/5 and sine 4/5. -/
def rotG : Nat → Nat → C K := fun r c =>
  if r = 0 then (if c = 0 then ⟨3 / 5, 0⟩ else ⟨-(4 / 5), 0⟩) else (if c = 0 then ⟨4 / 5, 0⟩ else ⟨3 / 5, 0⟩)

/-- `zero(1)`, the rotation on qubit 0, their product. -/
def rotCmds : List (Cmd K) := [.zero 1, .gate 1 rotG 0 [], .mv 0 0]

def rotM : Mat K := ⟨1, Spec.gate1 1 rotG 0 []⟩
/-- The state (3/5, 4/5). -/
def rotV : Vec K := rotM.apply (basis 1 0)
def rotHeap : Heap K := ⟨[basis 1 0, rotV], [rotM]⟩

theorem rot_runs (sqrt : K → K) : Runs sqrt NQUBITS rotCmds rotHeap [.unit, .unit, .unit] := by
  have r0 : Runs sqrt NQUBITS ([] : List (Cmd K)) ⟨[], []⟩ [] := .nil
  have r1 := r0.cons (c := .zero 1) ⟨by decide, by decide⟩ rfl
  have r2 := r1.cons (c := .gate 1 rotG 0 []) ⟨by decide, by decide, by simp, by simp⟩ rfl
  have r3 := r2.cons (c := .mv 0 0) ⟨rotM, basis 1 0, rfl, rfl, le_refl _⟩ rfl
  exact r3

theorem rot_hist (cfg : Cfg K) (thr thrM : Nat) :
    ∃ σ, Hist cfg thr thrM rotCmds rotHeap σ [.unit, .unit, .unit] := Hist.of_runs cfg thr thrM (rot_runs cfg.sqrt)

theorem rotM_at {i j : Nat} (hi : i < 2) (hj : j < 2) : (rotM : Mat K).at 1 i j = rotG i j := by
  have hb : ∀ x, x < 2 → bit (x.testBit 0) = x := by decide
  rw [show (1 : Nat) = (rotM : Mat K).k from rfl, at_self rotM (by simpa [rotM] using hi) (by simpa [rotM] using hj)]
  show Spec.gate1 1 rotG 0 [] i j = _
  unfold Spec.gate1
  rw [if_pos (by intro b hb h; omega), if_pos (by intro c hc; simp at hc), hb i hi, hb j hj]

theorem rotV_f {i : Nat} (hi : i < 2) : (rotV : Vec K).f i = rotG i 0 := by
  show ∑ j ∈ range 2, (rotM : Mat K).at 1 i j * (basis 1 0 : Vec K).f j = _
  rw [Finset.sum_range_succ, Finset.sum_range_one, rotM_at hi (by decide), rotM_at hi (by decide)]
  simp [basis]

theorem rotV_0 : (rotV : Vec K).f 0 = ⟨3 / 5, 0⟩ := by rw [rotV_f (by decide)]; rfl
theorem rotV_1 : (rotV : Vec K).f 1 = ⟨4 / 5, 0⟩ := by rw [rotV_f (by decide)]; rfl

theorem rotV_nonzero : (rotV : Vec K).Nonzero := by
  refine ⟨0, Nat.two_pow_pos _, ?_⟩
  rw [rotV_0]
  intro h
  have := congrArg Cx.r h
  norm_num at this

theorem rotV_norm2 : (rotV : Vec K).norm2 = 1 := by
  show ∑ i ∈ range 2, ((rotV : Vec K).f i).mag2 = 1
  rw [Finset.sum_range_succ, Finset.sum_range_one, rotV_0, rotV_1]
  simp only [Cx.mag2]; norm_num

theorem rotV_not_one : ∀ i < 2 ^ 1, (rotV : Vec K).f i ≠ 1 := by
  intro i hi h
  have hi' : i < 2 := by simpa using hi
  rw [rotV_f hi'] at h
  have h := congrArg Cx.r h
  interval_cases i <;> norm_num [rotG] at h

theorem rot_unitary : ∀ b b' : Bool, conj (rotG (K := K) 0 (bit b)) * rotG 0 (bit b') +
    conj (rotG (K := K) 1 (bit b)) * rotG 1 (bit b') = if b = b' then 1 else 0 := by
  intro b b'
  cases b <;> cases b' <;> apply Cx.ext <;> simp [rotG, bit, conj] <;> norm_num

theorem rot_isometry : Isometry 1 (fun i j => (rotM : Mat K).at 1 i j) := by
  have := gate1_isometry (K := K) (n := 1) (t := 0) (g := rotG) (cs := []) (by decide) (by simp) rot_unitary
  intro j hj k hk
  rw [← this j hj k hk]
  refine Finset.sum_congr rfl fun i hi => ?_
  have hi := mem_range.1 hi
  dsimp only
  rw [show (rotM : Mat K).at 1 i j = Spec.gate1 1 rotG 0 [] i j from
      at_self rotM (by simpa [rotM] using hi) (by simpa [rotM] using hj),
    show (rotM : Mat K).at 1 i k = Spec.gate1 1 rotG 0 [] i k from
      at_self rotM (by simpa [rotM] using hi) (by simpa [rotM] using hk)]

section
variable (cfg : Cfg K)

/-- C22, C23, C24, C26, C50: a reachable nonzero state that is not a basis state. -/
example : ∃ σ f, Hist cfg 5 5 rotCmds rotHeap σ [.unit, .unit, .unit] ∧ (rotHeap (K := K)).vs[1]? = some rotV ∧ (rotV : Vec K).k = 1 ∧
    (rotV : Vec K).Nonzero ∧ ReadsV cfg σ 1 1 f ∧ born 1 f 0 = 9 / 25 ∧ born 1 f 1 = 16 / 25 := by
  obtain ⟨σ, hσ⟩ := rot_hist cfg 5 5
  refine ⟨σ, _, hσ, rfl, rfl, rotV_nonzero, hσ.readsV (v := 1) (V := rotV) rfl rotV_nonzero (show 1 ≤ 30 by decide), ?_, ?_⟩
  · have := rotV_norm2 (K := K)
    unfold born
    rw [show ∑ j ∈ range (2 ^ 1), ((rotV : Vec K).f j).mag2 = 1 from this, rotV_0]
    simp only [Cx.mag2]; norm_num
  · have := rotV_norm2 (K := K)
    unfold born
    rw [show ∑ j ∈ range (2 ^ 1), ((rotV : Vec K).f j).mag2 = 1 from this, rotV_1]
    simp only [Cx.mag2]; norm_num

/-- C22, C23: the conclusions for it. -/
example : ∃ σ, Hist cfg 5 5 rotCmds rotHeap σ [.unit, .unit, .unit] ∧
    Returns cfg σ (.measureAll 1 false fun _ => 1 / 2) (.str [true]) ∧
    Returns cfg σ (.measureAll 1 false fun _ => 1 / 5) (.str [false]) := by
  obtain ⟨σ, hσ⟩ := rot_hist cfg 5 5
  have hn : ∑ j ∈ range 2, ((rotV : Vec K).f j).mag2 = 1 := rotV_norm2
  have h0 : ((rotV : Vec K).f 0).mag2 = 9 / 25 := by rw [rotV_0]; simp only [Cx.mag2]; norm_num
  refine ⟨σ, hσ, ?_, ?_⟩
  · have := measureAll_returns hσ (v := 1) (V := rotV) rfl rotV_nonzero false (draw := fun _ => 1 / 2)
      (fun _ _ => ⟨by norm_num, by norm_num⟩)
    have hs : sample (fun _ => (1 / 2 : K)) 1 0 (rotV : Vec K).f = 1 := by
      simp only [sample]
      rw [if_neg]
      · rfl
      · rw [show (2 ^ (0 + 1) : Nat) = 2 from rfl, hn, show (2 ^ 0 : Nat) = 1 from rfl, Finset.sum_range_one, h0]
        norm_num
    rw [show (rotV : Vec K).k = 1 from rfl, hs] at this
    exact this
  · have := measureAll_returns hσ (v := 1) (V := rotV) rfl rotV_nonzero false (draw := fun _ => 1 / 5)
      (fun _ _ => ⟨by norm_num, by norm_num⟩)
    have hs : sample (fun _ => (1 / 5 : K)) 1 0 (rotV : Vec K).f = 0 := by
      simp only [sample]
      rw [if_pos]
      rw [show (2 ^ (0 + 1) : Nat) = 2 from rfl, hn, show (2 ^ 0 : Nat) = 1 from rfl, Finset.sum_range_one, h0]
      norm_num
    rw [show (rotV : Vec K).k = 1 from rfl, hs] at this
    exact this

/-- C25: norm exactly 1, both outcomes possible, and a square root exists at the marginal of 0 (`25/9 = (5/3)^2`). -/
example : ∃ σ f, Hist cfg 5 5 rotCmds rotHeap σ [.unit, .unit, .unit] ∧ ReadsV cfg σ 1 1 f ∧
    ¬ (0 : K) < |norm2 1 f - 1| ∧ margin 1 f 0 false = 9 / 25 ∧ 0 < margin 1 f 0 true ∧
    (5 / 3 : K) * (5 / 3) = 1 / margin 1 f 0 false := by
  obtain ⟨σ, hσ⟩ := rot_hist cfg 5 5
  have hn : norm2 1 (rotV : Vec K).f = 1 := rotV_norm2
  have h0 : margin 1 (rotV : Vec K).f 0 false = 9 / 25 := by
    unfold margin
    rw [show (2 ^ 1 : Nat) = 2 from rfl, Finset.sum_range_succ, Finset.sum_range_one, rotV_0, rotV_1]
    simp only [Cx.mag2]; norm_num
  have h1 := margin_add 1 (rotV : Vec K).f 0
  rw [hn, h0] at h1
  refine ⟨σ, _, hσ, hσ.readsV (v := 1) (V := rotV) rfl rotV_nonzero (show 1 ≤ 30 by decide), ?_, h0, ?_, ?_⟩
  · rw [hn]; simp
  · linarith
  · rw [h0]; norm_num

/-- C51: the rotation is unitary. -/
example : ∃ σ A f, Hist cfg 5 5 rotCmds rotHeap σ [.unit, .unit, .unit] ∧ (rotHeap (K := K)).ms[0]? = some rotM ∧
    (rotHeap (K := K)).vs[1]? = some rotV ∧ ReadsM cfg σ 0 1 A ∧ ReadsV cfg σ 1 1 f ∧ Isometry 1 A := by
  obtain ⟨σ, hσ⟩ := rot_hist cfg 5 5
  exact ⟨σ, _, _, hσ, rfl, rfl, hσ.readsM (m := 0) (M := rotM) rfl (show 1 ≤ 1 by decide) (by decide),
    hσ.readsV (v := 1) (V := rotV) rfl rotV_nonzero (show 1 ≤ 30 by decide), rot_isometry⟩

/-- C50: a phase of modulus one that is not 1. -/
example : (⟨3 / 5, 4 / 5⟩ : C K).mag2 = 1 ∧ (⟨3 / 5, 4 / 5⟩ : C K) ≠ 1 := by
  constructor
  · simp only [Cx.mag2]; norm_num
  · intro h; have := congrArg Cx.r h; norm_num at this

/-- C18, C19: keep one state twice, drop the other; and the collectors really run (`force`). -/
example : ∃ σ, Hist cfg 5 5 rotCmds rotHeap σ [.unit, .unit, .unit] ∧
    (∀ i ∈ [1, 1], ∃ V, (rotHeap (K := K)).vs[i]? = some V) ∧ (∀ i ∈ [0], ∃ M, (rotHeap (K := K)).ms[i]? = some M) := by
  obtain ⟨σ, hσ⟩ := rot_hist cfg 5 5
  refine ⟨σ, hσ, fun i hi => ?_, fun i hi => ?_⟩
  · have : i = 1 := by simpa using hi
    subst this; exact ⟨rotV, rfl⟩
  · have : i = 0 := by simpa using hi
    subst this; exact ⟨rotM, rfl⟩

/-- C20, C21: the saved state has no amplitude 1, so loading it gives another state. -/
example : ∃ σ f, Hist cfg 5 5 rotCmds rotHeap σ [.unit, .unit, .unit] ∧ (rotHeap (K := K)).vs[1]? = some rotV ∧
    ReadsV cfg σ 1 1 f ∧ (∀ i < 2 ^ 1, f i ≠ 1) ∧
    ∃ σ' g, saveLoad cfg 0 σ 1 σ = .ok σ' ∧ ReadsV cfg σ' 2 1 g ∧ ∃ i < 2 ^ 1, g i ≠ f i := by
  obtain ⟨σ, hσ⟩ := rot_hist cfg 5 5
  have hf := hσ.readsV (v := 1) (V := rotV) rfl rotV_nonzero (show 1 ≤ 30 by decide)
  exact ⟨σ, _, hσ, rfl, hf, rotV_not_one,
    C21_load_wrong hσ hσ 0 (v := 1) (V := rotV) rfl rfl (show 1 ≤ 30 by decide) rotV_nonzero hf rotV_not_one⟩

/-- C21: the same state comes back divided by 3/5 or by 4/5. -/
example : ∃ σ σ' g, Hist cfg 5 5 rotCmds rotHeap σ [.unit, .unit, .unit] ∧ saveLoad cfg 0 σ 1 σ = .ok σ' ∧ ReadsV cfg σ' 2 1 g ∧
    ∃ m < 2, ∀ i < 2, (rotV : Vec K).f i = (rotV : Vec K).f m * g i := by
  obtain ⟨σ, hσ⟩ := rot_hist cfg 5 5
  have hf := hσ.readsV (v := 1) (V := rotV) rfl rotV_nonzero (show 1 ≤ 30 by decide)
  obtain ⟨σ', g, h1, h2, m, hm, _, h3, _⟩ := C21_exactly hσ hσ 0 (v := 1) (V := rotV) rfl rfl (show 1 ≤ 30 by decide) rotV_nonzero hf
  exact ⟨σ, σ', g, hσ, h1, h2, m, hm, h3⟩

/-- C28, C29: the history exists in the multi-threaded and in the serial build. -/
example (hmt : cfg.mt = true) : ∃ σ σ', Hist cfg 5 5 rotCmds rotHeap σ [.unit, .unit, .unit] ∧
    Hist { cfg with mt := false } 1 2 rotCmds rotHeap σ' [.unit, .unit, .unit] := by
  obtain ⟨σ, hσ⟩ := rot_hist cfg 5 5
  obtain ⟨σ', hσ'⟩ := rot_hist { cfg with mt := false } 1 2
  exact ⟨σ, σ', hσ, hσ'⟩

end

/-! ## C27 in reachable states -/

section
variable {cfg : Cfg K} {thr thrM : Nat} {cs : List (Cmd K)} {h : Heap K} {σ : Sys K} {os : List (Obs K)}

/-- **C27 (reachable states).**  In every reachable state `getVector` of a nonzero `n`-qubit state returns `2^n` entries,
entry `i` being the product of the weights along path `i`. -/
theorem C27_getVector_reachable (hR : Hist cfg thr thrM cs h σ os) {v n : Nat} {V : Vec K} (hv : h.vs[v]? = some V)
    (hV : V.k = n) (h0 : V.Nonzero) (hn : n ≤ 30) :
    ∃ e l, σ.d.vs[v]? = some e ∧ Returns cfg σ (.getVector v) (.vec l) ∧ l.length = 2 ^ n ∧
      ∀ i < 2 ^ n, ∃ r, l[i]? = some (some r) ∧ VWalk σ.st.vt.mem i n e 1 r := by
  subst hV
  obtain ⟨e, he, rel⟩ := forall₂_get hR.rel.data.vs hv
  obtain ⟨a, h1, h2, h3⟩ := getVector_spec hR.rel.inv hn (rel.nonzero h0).1 rel.1
  have hr := hR.readsV hv h0 hn
  refine ⟨e, _, he, hr, by simp, fun i hi => ?_⟩
  obtain ⟨p, nd, q1, q2, q3, q4⟩ := C27_getVector h1
  have hk : (nd.v + 1).toNat = V.k := Nat.pow_right_injective (le_refl 2) (show 2 ^ _ = 2 ^ _ by rw [← q3, h2])
  obtain ⟨r, w1, w2⟩ := q4 i (by rw [h2]; exact hi)
  rw [h3 i hi] at w1
  have : r = V.f i := by rw [← rel.2.2 i hi]; exact (Option.some.inj w1).symm
  refine ⟨r, by simp [hi, this], ?_⟩
  rw [← hk]
  exact w2

/-- **C27 (reachable states, matrices).** -/
theorem C27_getMatrix_reachable (hR : Hist cfg thr thrM cs h σ os) {m n : Nat} {M : Mat K} (hm : h.ms[m]? = some M)
    (hM : M.k ≤ n) (hn : n ≤ 30) :
    ∃ e l, σ.d.ms[m]? = some e ∧ Returns cfg σ (.getMatrix m n) (.mat l) ∧ l.length = 2 ^ n ∧
      ∀ i < 2 ^ n, ∃ row, l[i]? = some row ∧ row.length = 2 ^ n ∧
        ∀ j < 2 ^ n, ∃ r, row[j]? = some (some r) ∧ MWalk σ.st.mt.mem i j n e 1 r := by
  obtain ⟨e, he, rel⟩ := forall₂_get hR.rel.data.ms hm
  obtain ⟨a, h1, h2, h3⟩ := getMatrix_spec hR.rel.inv hn (rel.1.mono hM)
  have hr := hR.readsM hm hM hn
  refine ⟨e, _, he, hr, by simp, fun i hi => ⟨_, by rw [List.getElem?_map, List.getElem?_range hi]; rfl, by simp,
    fun j hj => ?_⟩⟩
  obtain ⟨_, q4⟩ := C27_getMatrix h1
  obtain ⟨r, w1, w2⟩ := q4 i hi j hj
  rw [h3 i hi j hj] at w1
  have : r = M.at n i j := by rw [← rel.at hM hi hj]; exact (Option.some.inj w1).symm
  exact ⟨r, by simp [hj, this], w2⟩

end

end QDD.Props
